import Verif.Lemmas.NodeDb2
import Mathlib.Data.Nat.Bitwise
/-
`merge` (binextend), `merge_balanced`, `lit_tree`, `weighted_lit_tree`.
-/
namespace RustSat
namespace TotDb

theorem eq_of_half {x y : Nat} (h1 : x / 2 = y / 2) (h2 : x % 2 = y % 2) : x = y := by omega

theorem lowBit_odd (k : Nat) : lowBit (2 * k + 1) = 1 := by
  unfold lowBit
  rw [Nat.add_sub_cancel]
  apply eq_of_half
  · rw [Nat.xor_div_two, Nat.and_div_two, show (2 * k + 1) / 2 = k by omega, show 2 * k / 2 = k by omega]
    simp
  · rw [Nat.xor_mod_two_eq]
    have : ((2 * k + 1) &&& (2 * k)) % 2 = 0 := by
      have := Nat.and_mod_two_pow (a := 2 * k + 1) (b := 2 * k) (n := 1)
      simp only [Nat.pow_one] at this
      rw [this]
      have e : 2 * k % 2 = 0 := by omega
      rw [e]; simp
    omega

theorem lowBit_even (k : Nat) (hk : 0 < k) : lowBit (2 * k) = 2 * lowBit k := by
  unfold lowBit
  apply eq_of_half
  · rw [Nat.xor_div_two, Nat.and_div_two, show 2 * k / 2 = k by omega, show (2 * k - 1) / 2 = k - 1 by omega]
    omega
  · rw [Nat.xor_mod_two_eq]
    have : ((2 * k) &&& (2 * k - 1)) % 2 = 0 := by
      have := Nat.and_mod_two_pow (a := 2 * k) (b := 2 * k - 1) (n := 1)
      simp only [Nat.pow_one] at this
      rw [this]
      have e : 2 * k % 2 = 0 := by omega
      rw [e]; simp
    omega

theorem and_double_ne {x y : Nat} : (2 * x &&& y) ≠ 0 ↔ (x &&& (y / 2)) ≠ 0 := by
  have h1 : (2 * x &&& y) / 2 = x &&& (y / 2) := by
    rw [Nat.and_div_two, show 2 * x / 2 = x by omega]
  have h2 : (2 * x &&& y) % 2 = 0 := by
    have := Nat.and_mod_two_pow (a := 2 * x) (b := y) (n := 1)
    simp only [Nat.pow_one] at this
    rw [this]
    have e : 2 * x % 2 = 0 := by omega
    rw [e]; simp
  omega

theorem one_and_ne {y : Nat} : (1 &&& y) ≠ 0 ↔ y % 2 = 1 := by
  rw [Nat.one_and_eq_mod_two]; omega

/-- The width of segment `k` at a level. -/
def segW (width rw k : Nat) : Nat := width + (if (lowBit k &&& rw) ≠ 0 then 1 else 0)

theorem segW_left (pw prw k : Nat) (hk : 0 < k) : segW pw prw (2 * k - 1) = pw + prw % 2 := by
  unfold segW
  rw [show 2 * k - 1 = 2 * (k - 1) + 1 by omega, lowBit_odd]
  by_cases h : prw % 2 = 1
  · rw [if_pos (one_and_ne.2 h)]; omega
  · rw [if_neg (fun h' => h (one_and_ne.1 h'))]; omega

theorem segW_right (pw prw k : Nat) (hk : 0 < k) :
    segW pw prw (2 * k) = pw + (if (lowBit k &&& (prw / 2)) ≠ 0 then 1 else 0) := by
  unfold segW
  rw [lowBit_even k hk]
  by_cases h : (lowBit k &&& (prw / 2)) ≠ 0
  · rw [if_pos h, if_pos (and_double_ne.2 h)]
  · rw [if_neg h, if_neg (fun h' => h (and_double_ne.1 h'))]

theorem segW_next (pw prw k : Nat) (hk : 0 < k) :
    segW (2 * pw + prw % 2) (prw / 2) k = segW pw prw (2 * k - 1) + segW pw prw (2 * k) := by
  rw [segW_left pw prw k hk, segW_right pw prw k hk]
  unfold segW
  omega

/-- The value of the first connection of a block. -/
def blockVal (db : Db) (T : Lit → Bool) : List NodeCon → Nat
  | [] => 0
  | c :: _ => conVal db T c

/-- The blocks of connections have the widths of a level, starting with the given segment. -/
def Lens (pw prw : Nat) : Nat → List (List NodeCon) → Prop
  | _, [] => True
  | k, b :: bs => b.length = segW pw prw k ∧ Lens pw prw (k + 1) bs

/-- First connections of blocks are fine. -/
def HeadsOK (P : Db → NodeCon → Prop) (db : Db) (bs : List (List NodeCon)) : Prop :=
  ∀ b ∈ bs, ∀ c, b.head? = some c → P db c

theorem blockVal_ext {P : Db → NodeCon → Prop} (hP : Mergeable P) {L : List Lit} {db db' : Db} (hw : db.WF)
    (h : Ext L db db') (T : Lit → Bool) {b : List NodeCon} (hb : ∀ c, b.head? = some c → P db c) :
    blockVal db' T b = blockVal db T b := by
  cases b with
  | nil => rfl
  | cons c b => exact h.conVal hw T (hP.id (hb c rfl))

theorem sum_blockVal_ext {P : Db → NodeCon → Prop} (hP : Mergeable P) {L : List Lit} {db db' : Db} (hw : db.WF)
    (h : Ext L db db') (T : Lit → Bool) {bs : List (List NodeCon)} (hb : HeadsOK P db bs) :
    (bs.map (blockVal db' T)).sum = (bs.map (blockVal db T)).sum := by
  congr 1
  apply List.map_congr_left
  intro b hbm
  exact blockVal_ext hP hw h T (hb b hbm)

theorem getD_append_cons (done : List NodeCon) (c : NodeCon) (rest : List NodeCon) (d : NodeCon) :
    (done ++ c :: rest).getD done.length d = c := by
  rw [List.getD_eq_getElem?_getD]; simp

theorem set_append_cons (done : List NodeCon) (c d : NodeCon) (rest : List NodeCon) :
    (done ++ c :: rest).set done.length d = done ++ d :: rest := by
  simp

theorem mergeLevel_spec {P : Db → NodeCon → Prop} (hP : Mergeable P) {pw prw lastRw : Nat}
    (hwidth : 0 < 2 * pw + prw % 2) (hlast : lastRw % 2 = prw % 2 ∨ pw = 0) :
    ∀ (fuel : Nat) (m : Nat) (bs : List (List NodeCon)) (db : Db) (done : List NodeCon) (k : Nat),
      bs.length = 2 * m → m ≤ fuel → 0 < k → db.WF → Lens pw prw (2 * k - 1) bs → HeadsOK P db bs →
      ∃ db' bs', mergeLevel (2 * pw + prw % 2) (prw / 2) lastRw fuel db (done ++ bs.flatten) done.length k =
          (db', done ++ bs'.flatten) ∧ db'.WF ∧ Ext [] db db' ∧ bs'.length = m ∧
        Lens (2 * pw + prw % 2) (prw / 2) k bs' ∧ HeadsOK P db' bs' ∧
        ∀ T, (bs'.map (blockVal db' T)).sum = (bs.map (blockVal db T)).sum := by
  intro fuel
  induction fuel with
  | zero =>
    intro m bs db done k hlen hm hk hw hL hH
    have hb : bs = [] := List.length_eq_zero_iff.1 (by omega)
    subst hb
    refine ⟨db, [], by simp [mergeLevel], hw, Ext.refl _ _, by simp at hlen ⊢; omega, trivial,
      by simp [HeadsOK], by simp⟩
  | succ fuel ih =>
    intro m bs db done k hlen hm hk hw hL hH
    match bs, hlen with
    | [], hlen =>
      refine ⟨db, [], by simp [mergeLevel], hw, Ext.refl _ _, by simp at hlen ⊢; omega, trivial,
        by simp [HeadsOK], by simp⟩
    | [_], hlen => simp at hlen; omega
    | b1 :: b2 :: bs, hlen =>
      obtain ⟨hb1, hb2, hL⟩ := hL
      rw [show 2 * k - 1 + 1 = 2 * k by omega] at hb2 hL
      rw [show 2 * k + 1 = 2 * (k + 1) - 1 by omega] at hL
      rw [segW_left pw prw k hk] at hb1
      rw [segW_right pw prw k hk] at hb2
      have hm' : bs.length = 2 * (m - 1) := by simp at hlen; omega
      have hm1 : 1 ≤ m := by simp at hlen; omega
      generalize hext : (if (lowBit k &&& (prw / 2)) ≠ 0 then 1 else 0) = e at hb2
      have he : e ≤ 1 := by rw [← hext]; split <;> omega
      have hpr : prw % 2 < 2 := Nat.mod_lt _ (by omega)
      have hfl : done ++ (b1 :: b2 :: bs).flatten = done ++ ((b1 ++ b2) ++ bs.flatten) := by simp
      rw [hfl, mergeLevel]
      have hlt : done.length < (done ++ ((b1 ++ b2) ++ bs.flatten)).length := by simp; omega
      rw [if_pos hlt]
      simp only
      by_cases ht1 : 2 * pw + prw % 2 + e = 1
      · rw [hext, if_pos ht1]
        have hl1 : b1.length = 1 := by omega
        have hl2 : b2.length = 0 := by omega
        have hb2n : b2 = [] := List.length_eq_zero_iff.1 hl2
        subst hb2n
        have := ih (m - 1) bs db (done ++ b1) (k + 1) hm' (by omega) (by omega) hw hL
          (fun b hb => hH b (by simp [hb]))
        obtain ⟨db', bs', hr, hw', hx, hlen', hL', hH', hsum⟩ := this
        refine ⟨db', b1 :: bs', ?_, hw', hx, by simp; omega, ⟨?_, hL'⟩, ?_, ?_⟩
        · have : (done ++ b1).length = done.length + 1 := by simp [hl1]
          rw [this] at hr
          simpa [List.append_assoc] using hr
        · unfold segW; rw [hext]; omega
        · intro b hb c hc
          rcases List.mem_cons.1 hb with rfl | hb
          · exact hP.ext hw hw' hx (hH b (by simp) c hc)
          · exact hH' b hb c hc
        · intro T
          simp only [List.map_cons, List.sum_cons]
          rw [hsum, blockVal_ext hP hw hx T (hH b1 (by simp))]
          simp [blockVal]
      · rw [hext, if_neg ht1]
        match b1, b2 with
        | [], _ => simp only [List.length_nil] at hb1; omega
        | _ :: _, [] => simp only [List.length_nil] at hb2; omega
        | lc :: t1, rc :: t2 =>
          have hroff : (if (2 * pw + prw % 2 + e) % 2 = 0 then (2 * pw + prw % 2 + e) / 2
              else (2 * pw + prw % 2 + e) / 2 + (if (lowBit ((k - 1) * 2 + 1) &&& lastRw) ≠ 0 then 1 else 0)) =
              (lc :: t1).length := by
            rw [hb1, show (k - 1) * 2 + 1 = 2 * (k - 1) + 1 by omega, lowBit_odd]
            by_cases hev : (2 * pw + prw % 2 + e) % 2 = 0
            · rw [if_pos hev]; omega
            · rw [if_neg hev]
              by_cases hl1 : lastRw % 2 = 1
              · rw [if_pos (one_and_ne.2 hl1)]; omega
              · rw [if_neg (fun h => hl1 (one_and_ne.1 h))]; omega
          rw [hroff]
          have hlc : (done ++ ((lc :: t1) ++ (rc :: t2) ++ bs.flatten)).getD done.length (NodeCon.full 0) = lc := by
            have := getD_append_cons done lc (t1 ++ (rc :: t2) ++ bs.flatten) (NodeCon.full 0)
            simpa [List.append_assoc] using this
          have hrc : (done ++ ((lc :: t1) ++ (rc :: t2) ++ bs.flatten)).getD (done.length + (lc :: t1).length)
              (NodeCon.full 0) = rc := by
            have := getD_append_cons (done ++ (lc :: t1)) rc (t2 ++ bs.flatten) (NodeCon.full 0)
            rw [List.length_append] at this
            simpa [List.append_assoc] using this
          rw [hlc, hrc]
          have hPl : P db lc := hH (lc :: t1) (by simp) lc rfl
          have hPr : P db rc := hH (rc :: t2) (by simp) rc rfl
          have hmerge := hP.merge hw hPl hPr
          generalize mergeCons db lc rc = res at hmerge ⊢
          obtain ⟨con, db1⟩ := res
          obtain ⟨g1, g2, g3, g4⟩ := hmerge
          simp only at g1 g2 g3 g4 ⊢
          have hset : (done ++ ((lc :: t1) ++ (rc :: t2) ++ bs.flatten)).set done.length con =
              (done ++ (con :: t1 ++ (rc :: t2))) ++ bs.flatten := by
            have := set_append_cons done lc con (t1 ++ (rc :: t2) ++ bs.flatten)
            simpa [List.append_assoc] using this
          rw [hset]
          have hst : done.length + (2 * pw + prw % 2 + e) = (done ++ (con :: t1 ++ (rc :: t2))).length := by
            simp only [List.length_append, List.length_cons] at hb1 hb2 ⊢; omega
          rw [hst]
          have := ih (m - 1) bs db1 (done ++ (con :: t1 ++ (rc :: t2))) (k + 1) hm' (by omega) (by omega) g1 hL
            (fun b hb c hc => hP.ext hw g1 g2 (hH b (by simp [hb]) c hc))
          obtain ⟨db', bs', hr, hw', hx, hlen', hL', hH', hsum⟩ := this
          refine ⟨db', (con :: t1 ++ (rc :: t2)) :: bs', ?_, hw', g2.trans hx, by simp; omega, ⟨?_, hL'⟩, ?_, ?_⟩
          · rw [hr]; simp [List.append_assoc]
          · unfold segW; rw [hext]
            simp only [List.length_append, List.length_cons] at hb1 hb2 ⊢; omega
          · intro b hb c hc
            rcases List.mem_cons.1 hb with rfl | hb
            · simp only [List.cons_append, List.head?_cons, Option.some.injEq] at hc
              subst hc
              exact hP.ext g1 hw' hx g3
            · exact hH' b hb c hc
          · intro T
            simp only [List.map_cons, List.sum_cons, List.cons_append]
            rw [hsum]
            have h1 : blockVal db' T (con :: (t1 ++ rc :: t2)) = conVal db T lc + conVal db T rc := by
              show conVal db' T con = _
              rw [hx.conVal g1 T (hP.id g3), g4]
            have h2 : (bs.map (blockVal db1 T)).sum = (bs.map (blockVal db T)).sum :=
              sum_blockVal_ext hP hw g2 T (fun b hb => hH b (by simp [hb]))
            rw [h1, h2]
            simp only [blockVal]
            omega

/-- One step from a level to the next. -/
def nextLevel (x : Nat × Nat) : Nat × Nat := (2 * x.1 + x.2 % 2, x.2 / 2)

/-- Several levels. -/
def iterLevel : Nat → Nat × Nat → Nat × Nat
  | 0, x => x
  | s + 1, x => iterLevel s (nextLevel x)

theorem iterLevel_ge (s : Nat) : ∀ x, x.1 ≤ (iterLevel s x).1 := by
  induction s with
  | zero => intro x; exact Nat.le_refl _
  | succ s ih =>
    intro x
    have := ih (nextLevel x)
    simp only [iterLevel]
    have h2 : x.1 ≤ (nextLevel x).1 := by simp only [nextLevel]; omega
    omega

theorem lor_low (w r : Nat) : (w <<< 1) ||| (r &&& 1) = 2 * w + r % 2 := by
  rw [Nat.and_one_is_mod, ← Nat.shiftLeft_add_eq_or_of_lt (by rw [Nat.pow_one]; omega), Nat.shiftLeft_eq, Nat.pow_one]
  omega

theorem shiftRight_one (x : Nat) : x >>> 1 = x / 2 := by rw [Nat.shiftRight_eq_div_pow, Nat.pow_one]

theorem mergeLoop_spec {P : Db → NodeCon → Prop} (hP : Mergeable P) {n : Nat} (_hn : 0 < n) :
    ∀ (s fuel : Nat) (pw prw lastRw : Nat) (bs : List (List NodeCon)) (db : Db),
      iterLevel s (nextLevel (pw, prw)) = (n, 0) → s + 1 ≤ fuel → 0 < 2 * pw + prw % 2 →
      lastRw / 2 = prw / 2 → (lastRw = prw ∨ pw = 0) → bs.length = 2 * 2 ^ s → bs.flatten.length = n →
      db.WF → Lens pw prw 1 bs → HeadsOK P db bs →
      ∃ db' b, mergeLoop fuel db bs.flatten (2 * pw + prw % 2) (prw / 2) lastRw = (db', b) ∧
        db'.WF ∧ Ext [] db db' ∧ b.length = n ∧ (∀ c, b.head? = some c → P db' c) ∧
        ∀ T, blockVal db' T b = (bs.map (blockVal db T)).sum := by
  intro s
  induction s with
  | zero =>
    intro fuel pw prw lastRw bs db hit hf hw0 hl1 hl2 hlen hfl hw hL hH
    match fuel, hf with
    | fuel + 1, _ =>
      simp only [iterLevel, nextLevel, Prod.mk.injEq] at hit
      obtain ⟨e1, e2⟩ := hit
      rw [mergeLoop, if_pos (by omega)]
      have h := mergeLevel_spec hP (pw := pw) (prw := prw) (lastRw := lastRw) hw0
        (hl2.elim (fun h => Or.inl (by rw [h])) Or.inr) bs.flatten.length 1 bs db [] 1 (by simpa using hlen)
        (by omega) (by omega) hw hL hH
      obtain ⟨db', bs', hr, hw', hx, hlen', hL', hH', hsum⟩ := h
      simp only [List.nil_append, List.length_nil] at hr
      rw [hr]
      simp only
      match bs', hlen' with
      | [b], _ =>
        have hbl : b.length = n := by
          have := hL'.1
          unfold segW at this
          rw [e1, e2] at this
          simpa using this
        have hout : ∀ l, mergeLoop fuel db' [b].flatten
            (((2 * pw + prw % 2) <<< 1) ||| (prw / 2 &&& 1)) ((prw / 2) >>> 1) l = (db', [b].flatten) := by
          intro l
          cases fuel with
          | zero => rfl
          | succ f =>
            rw [mergeLoop, if_neg]
            rw [lor_low]
            simp only [List.flatten_cons, List.flatten_nil, List.append_nil]
            omega
        rw [hout]
        refine ⟨db', b, by simp, hw', hx, hbl, fun c hc => hH' b (by simp) c hc, fun T => ?_⟩
        rw [← hsum T]; simp
  | succ s ih =>
    intro fuel pw prw lastRw bs db hit hf hw0 hl1 hl2 hlen hfl hw hL hH
    match fuel, hf with
    | fuel + 1, hf =>
      have hle : 2 * pw + prw % 2 ≤ n := by
        have := iterLevel_ge (s + 1) (nextLevel (pw, prw))
        rw [hit] at this
        exact this
      rw [mergeLoop, if_pos (by omega)]
      have hpos : 0 < 2 ^ s := Nat.two_pow_pos s
      have hcount : 2 ^ (s + 1) ≤ bs.flatten.length := by
        have hge : ∀ (m k : Nat) (bs : List (List NodeCon)), 0 < k → bs.length = 2 * m → Lens pw prw (2 * k - 1) bs →
            m ≤ bs.flatten.length := by
          intro m
          induction m with
          | zero => intros; omega
          | succ m ihm =>
            intro k bs hk hl hL
            match bs, hl with
            | [_], hl => simp at hl; omega
            | b1 :: b2 :: bs, hl =>
              obtain ⟨h1, h2, h3⟩ := hL
              have hs := segW_next pw prw k hk
              rw [show 2 * k - 1 + 1 = 2 * k by omega] at h2 h3
              have h4 := ihm (k + 1) bs (by omega) (by simp at hl; omega)
                (by rw [show 2 * (k + 1) - 1 = 2 * k + 1 by omega]; exact h3)
              have h5 : 1 ≤ segW (2 * pw + prw % 2) (prw / 2) k := by unfold segW; omega
              simp only [List.flatten_cons, List.length_append]
              omega
        exact hge (2 ^ (s + 1)) 1 bs (by omega) hlen hL
      have h := mergeLevel_spec hP (pw := pw) (prw := prw) (lastRw := lastRw) hw0
        (hl2.elim (fun h => Or.inl (by rw [h])) Or.inr) bs.flatten.length (2 ^ (s + 1)) bs db [] 1 hlen
        hcount (by omega) hw hL hH
      obtain ⟨db', bs', hr, hw', hx, hlen', hL', hH', hsum⟩ := h
      simp only [List.nil_append, List.length_nil] at hr
      rw [hr]
      simp only
      have hflen : bs'.flatten.length = n := by
        have hsame : ∀ (f : Nat) db cons st k, (mergeLevel (2 * pw + prw % 2) (prw / 2) lastRw f db cons st k).2.length
            = cons.length := by
          intro f
          induction f with
          | zero => intros; rfl
          | succ f ihf =>
            intro db cons st k
            rw [mergeLevel]
            by_cases h : st < cons.length
            · rw [if_pos h]
              simp only
              generalize (if (lowBit k &&& (prw / 2)) ≠ 0 then 1 else 0) = e
              by_cases h1 : 2 * pw + prw % 2 + e = 1
              · rw [if_pos h1, ihf]
              · rw [if_neg h1, ihf, List.length_set]
            · rw [if_neg h]
        have := hsame bs.flatten.length db bs.flatten 0 1
        rw [hr] at this
        simp only at this
        omega
      rw [lor_low, shiftRight_one, shiftRight_one]
      have := ih fuel (2 * pw + prw % 2) (prw / 2) (lastRw / 2) bs' db' hit (by omega) (by omega)
        (by omega) (Or.inl hl1) (by rw [hlen', Nat.pow_succ]; omega) hflen hw' hL' hH'
      obtain ⟨db2, b, hr2, hw2, hx2, hb, hH2, hsum2⟩ := this
      refine ⟨db2, b, hr2, hw2, hx.trans hx2, hb, hH2, fun T => ?_⟩
      rw [hsum2, hsum]

/-- The sum of the widths of the first `2 ^ s` segments. -/
theorem sum_segW (s : Nat) : ∀ (x : Nat × Nat),
    ((List.range' 1 (2 ^ s)).map (segW x.1 x.2)).sum = segW (iterLevel s x).1 (iterLevel s x).2 1 := by
  induction s with
  | zero => intro x; simp [iterLevel]
  | succ s ih =>
    intro x
    rw [iterLevel, ← ih (nextLevel x)]
    have key : ∀ (m k : Nat), 0 < k → ((List.range' (2 * k - 1) (2 * m)).map (segW x.1 x.2)).sum =
        ((List.range' k m).map (segW (nextLevel x).1 (nextLevel x).2)).sum := by
      intro m
      induction m with
      | zero => intro k _; rfl
      | succ m ihm =>
        intro k hk
        rw [show 2 * (m + 1) = 2 * m + 1 + 1 by omega, List.range'_succ, List.range'_succ, List.range'_succ]
        simp only [List.map_cons, List.sum_cons]
        rw [show 2 * k - 1 + 1 + 1 = 2 * (k + 1) - 1 by omega, ihm (k + 1) (by omega)]
        have := segW_next x.1 x.2 k hk
        rw [show 2 * k - 1 + 1 = 2 * k by omega]
        simp only [nextLevel]
        omega
    rw [show 2 ^ (s + 1) = 2 * 2 ^ s by rw [Nat.pow_succ]; omega]
    exact key (2 ^ s) 1 (by omega)

/-- Cutting a list into blocks of given widths. -/
theorem exists_blocks (f : Nat → Nat) : ∀ (m k : Nat) (cons : List NodeCon),
    cons.length = ((List.range' k m).map f).sum →
    ∃ bs : List (List NodeCon), bs.flatten = cons ∧ bs.length = m ∧
      ∀ (i : Nat) b, bs[i]? = some b → b.length = f (k + i) := by
  intro m
  induction m with
  | zero =>
    intro k cons h
    refine ⟨[], ?_, rfl, by simp⟩
    simp at h
    simp [h]
  | succ m ih =>
    intro k cons h
    rw [List.range'_succ] at h
    simp only [List.map_cons, List.sum_cons] at h
    obtain ⟨bs, h1, h2, h3⟩ := ih (k + 1) (cons.drop (f k)) (by rw [List.length_drop]; omega)
    refine ⟨cons.take (f k) :: bs, by simp [h1], by simp [h2], ?_⟩
    intro i b hb
    cases i with
    | zero =>
      simp only [List.getElem?_cons_zero, Option.some.injEq] at hb
      subst hb
      rw [List.length_take]
      simp only [Nat.add_zero]
      omega
    | succ i =>
      simp only [List.getElem?_cons_succ] at hb
      rw [h3 i b hb]
      congr 1
      omega

theorem Lens_of {pw prw : Nat} : ∀ (bs : List (List NodeCon)) (k : Nat),
    (∀ (i : Nat) b, bs[i]? = some b → b.length = segW pw prw (k + i)) → Lens pw prw k bs := by
  intro bs
  induction bs with
  | nil => intro k _; trivial
  | cons b bs ih =>
    intro k h
    refine ⟨h 0 b rfl, ih (k + 1) fun i b' hb => ?_⟩
    have := h (i + 1) b' (by simpa using hb)
    rw [this]
    congr 1
    omega

/-- The digits of the width are reversed: going up the levels restores the width. -/
theorem reverseWidth_spec : ∀ (fuel width rw : Nat), 0 < width → width ≤ fuel →
    ∃ s, (reverseWidth fuel width rw).1 = 1 ∧ iterLevel s (reverseWidth fuel width rw) = (width, rw) ∧
      s < width := by
  intro fuel
  induction fuel with
  | zero => intro width rw h1 h2; omega
  | succ fuel ih =>
    intro width rw h1 h2
    rw [reverseWidth]
    by_cases h : width > 1
    · rw [if_pos h]
      obtain ⟨s, e1, e2, e3⟩ := ih (width / 2) ((rw <<< 1) ||| (width &&& 1)) (by omega) (by omega)
      refine ⟨s + 1, e1, ?_, by omega⟩
      have hcomm : ∀ s x, iterLevel (s + 1) x = nextLevel (iterLevel s x) := by
        intro s
        induction s with
        | zero => intro x; rfl
        | succ s ih => intro x; rw [iterLevel, ih]; rfl
      rw [hcomm, e2]
      simp only [nextLevel]
      rw [lor_low]
      simp only [Prod.mk.injEq]
      omega
    · rw [if_neg h]
      have : width = 1 := by omega
      subst this
      exact ⟨0, rfl, rfl, by omega⟩

/-- `merge` adds up the values of the connections. -/
theorem merge_spec {P : Db → NodeCon → Prop} (hP : Mergeable P) {db : Db} (hw : db.WF) {cons : List NodeCon}
    (hne : cons ≠ []) (hc : ∀ c ∈ cons, P db c) :
    ∃ c db', merge db cons = (some c, db') ∧ db'.WF ∧ Ext [] db db' ∧ P db' c ∧
      ∀ T, conVal db' T c = (cons.map (conVal db T)).sum := by
  have hlen : 0 < cons.length := List.length_pos_iff.2 hne
  unfold merge
  have he : cons.isEmpty = false := by simpa using hne
  rw [he]
  simp only [Bool.false_eq_true, if_false]
  obtain ⟨s, e1, e2, e3⟩ := reverseWidth_spec cons.length cons.length 0 hlen (Nat.le_refl _)
  generalize hrw : reverseWidth cons.length cons.length 0 = x at e1 e2 ⊢
  obtain ⟨width, rw⟩ := x
  simp only at e1
  subst e1
  simp only
  -- the virtual level below: segments of width zero or one
  have hnext : nextLevel (0, 2 * rw + 1) = (1, rw) := by
    simp only [nextLevel, Prod.mk.injEq]; omega
  have hsum := sum_segW (s + 1) (0, 2 * rw + 1)
  rw [iterLevel, hnext, e2] at hsum
  have h1 : segW cons.length 0 1 = cons.length := by unfold segW; simp
  simp only at hsum
  rw [h1] at hsum
  obtain ⟨bs, hb1, hb2, hb3⟩ := exists_blocks _ _ _ cons hsum.symm
  have hle1 : ∀ b ∈ bs, b.length ≤ 1 := by
    intro b hb
    obtain ⟨i, hi⟩ := List.mem_iff_getElem?.1 hb
    rw [hb3 i b hi]
    unfold segW
    split <;> omega
  have hH : HeadsOK P db bs := by
    intro b hb c hcc
    apply hc
    rw [← hb1]
    exact List.mem_flatten.2 ⟨b, hb, List.mem_of_mem_head? hcc⟩
  have h := mergeLoop_spec hP hlen s (cons.length + 1) 0 (2 * rw + 1) (rw <<< 1) bs db (by rw [hnext]; exact e2)
    (by omega) (by omega) (by rw [Nat.shiftLeft_eq]; omega) (Or.inr rfl) (by rw [hb2, Nat.pow_succ]; omega)
    (by rw [hb1]) hw (Lens_of bs 1 hb3) hH
  obtain ⟨db', b, hr, hw', hx, hbl, hbh, hval⟩ := h
  rw [hb1, show 2 * 0 + (2 * rw + 1) % 2 = 1 by omega, show (2 * rw + 1) / 2 = rw by omega] at hr
  rw [hr]
  match b with
  | [] => simp at hbl; omega
  | c :: b =>
    refine ⟨c, db', rfl, hw', hx, hbh c rfl, fun T => ?_⟩
    have := hval T
    simp only [blockVal] at this
    rw [this, ← hb1]
    clear hb1 hb2 hb3 hH hval this hr
    induction bs with
    | nil => rfl
    | cons x bs ih =>
      have hx1 := hle1 x (by simp)
      simp only [List.map_cons, List.sum_cons, List.flatten_cons, List.map_append, List.sum_append]
      rw [ih (fun b hb => hle1 b (by simp [hb]))]
      congr 1
      match x, hx1 with
      | [], _ => rfl
      | [c], _ => simp [blockVal]

end TotDb
end RustSat
