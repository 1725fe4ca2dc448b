import Verif.Lemmas.AssignmentInput
/-
C79: files that describe knapsacks, facility location and assignment problems are read as the problem they describe.
-/
namespace RustSat
namespace Problems
open Text P

/-! ### Knapsacks -/

theorem kpRows_skips {L : List Text} (hL : ∀ l ∈ L, NoContent l) {b : Bool} {items : List KnapsackItem} {ls : List Text} :
    kpRows b items (L.map (· ++ ['\n']) ++ ls) = kpRows b items ls := by
  induction L with
  | nil => rfl
  | cons l L ih =>
    rw [List.map_cons, List.cons_append, kpRows_skip (hL l List.mem_cons_self)]
    exact ih fun l hl => hL l (List.mem_cons_of_mem _ hl)

/-- A knapsack in the format of MOO-Library is read as that knapsack, whatever follows in the file. -/
theorem C79_knapsack {d : KnapsackData} {nObjs : Nat} {L : List Text} (h : KnapsackFile d nObjs L) (hd : d.NumbersFit nObjs) (rest : Text) :
    KnapsackData.parseMoolib (unlines L ++ rest) = some d := by
  obtain ⟨L1, L2, L3, p, x, p', rfl, h1, h2, h3, hp, hp', hx⟩ := h
  have hnl : ∀ l ∈ L1 ++ (L2 ++ (L3 ++ [p ++ (x ++ p')])), '\n' ∉ l := by
    intro l hl
    simp only [List.mem_append, List.mem_singleton] at hl
    obtain hl | hl | hl | rfl := hl
    · exact h1.newline l hl
    · exact h2.newline l hl
    · exact (h3 l hl).newline
    · simp only [List.mem_append, not_or]
      exact ⟨hp.newline, newline_listText hx, hp'.newline⟩
  have e : (L1 ++ (L2 ++ (L3 ++ [p ++ (x ++ p')]))).map (· ++ ['\n']) ++ readLines rest =
      L1.map (· ++ ['\n']) ++ (L2.map (· ++ ['\n']) ++ (L3.map (· ++ ['\n']) ++ ((p ++ (x ++ p') ++ ['\n']) :: readLines rest))) := by
    simp
  rw [KnapsackData.parseMoolib, readLines_unlines hnl, e]
  obtain ⟨La, ha, ea⟩ := numLine_ok h1 hd.objs (L2.map (· ++ ['\n']) ++ (L3.map (· ++ ['\n']) ++ ((p ++ (x ++ p') ++ ['\n']) :: readLines rest)))
  obtain ⟨Lb, hb, eb⟩ := numLine_ok ha hd.items (L2.map (· ++ ['\n']) ++ (L3.map (· ++ ['\n']) ++ ((p ++ (x ++ p') ++ ['\n']) :: readLines rest)))
  obtain ⟨Lc, hc, ec⟩ := numLine_ok hb hd.capacity (L2.map (· ++ ['\n']) ++ (L3.map (· ++ ['\n']) ++ ((p ++ (x ++ p') ++ ['\n']) :: readLines rest)))
  have hrows : ∀ row ∈ (List.range nObjs).map (fun k => d.items.map fun it => it.values.getD k 0),
      row.length = (List.replicate d.items.length (⟨0, []⟩ : KnapsackItem)).length ∧ ∀ v ∈ row, v ≤ usizeMax := by
    intro row hrow
    obtain ⟨k, hk, rfl⟩ := List.mem_map.1 hrow
    refine ⟨by simp, fun v hv => ?_⟩
    obtain ⟨it, hit, rfl⟩ := List.mem_map.1 hv
    have hl := (hd.values it hit).1
    have hk := List.mem_range.1 hk
    rw [List.getD_eq_getElem?_getD, List.getElem?_eq_getElem (by omega), Option.getD_some]
    exact (hd.values it hit).2 _ (List.getElem_mem _)
  rw [ea, Option.bind_some, eb, Option.bind_some, ec, Option.bind_some, kpRows_skips hc.nil_skips, kpRows_ok h2 _ _ hrows, Option.bind_some,
    pushRows_all d.items nObjs (fun it hit => (hd.values it hit).1) nObjs (Nat.le_refl _)]
  have hw : ∀ v ∈ d.items.map (·.weight), v ≤ usizeMax := by
    intro v hv
    obtain ⟨it, hit, rfl⟩ := List.mem_map.1 hv
    exact hd.weights it hit
  rw [kpWeights_ok h3 hp hp' hx (by simp) hw, Option.bind_some]
  have hitems : List.zipWith (fun (it : KnapsackItem) v => { it with weight := v }) (d.items.map fun it => ⟨0, it.values.take nObjs⟩)
      (d.items.map (·.weight)) = d.items := by
    rw [List.zipWith_map, List.zipWith_self]
    conv => rhs; rw [← List.map_id d.items]
    apply List.map_congr_left
    intro it hit
    rw [List.take_of_length_le (by rw [(hd.values it hit).1])]
    rfl
  simp only [hitems]
  rw [if_pos]
  rw [List.all_eq_true]
  intro it hit
  simpa using (hd.values it hit).1

/-- A file with a row of values longer than the number of items is rejected. -/
theorem C79_knapsack_long_row {nObjs nItems cap : Nat} {rows : List (List Nat)} {L1 L2 : List Text} (h1 : Nums [nObjs, nItems, cap] L1)
    (h2 : Rows false rows L2) (ho : nObjs ≤ usizeMax) (hi : nItems ≤ usizeMax) (hc : cap ≤ usizeMax)
    (hr : ∀ row ∈ rows, nItems ≤ row.length ∧ ∀ v ∈ row, v ≤ usizeMax) (hex : ∃ row ∈ rows, nItems < row.length) (rest : Text) :
    KnapsackData.parseMoolib (unlines (L1 ++ L2) ++ rest) = none := by
  have hnl : ∀ l ∈ L1 ++ L2, '\n' ∉ l := by
    intro l hl
    obtain hl | hl := List.mem_append.1 hl
    · exact h1.newline l hl
    · exact h2.newline l hl
  rw [KnapsackData.parseMoolib, readLines_unlines hnl, List.map_append, List.append_assoc]
  obtain ⟨La, ha, ea⟩ := numLine_ok h1 ho (L2.map (· ++ ['\n']) ++ readLines rest)
  obtain ⟨Lb, hb, eb⟩ := numLine_ok ha hi (L2.map (· ++ ['\n']) ++ readLines rest)
  obtain ⟨Lc, hc, ec⟩ := numLine_ok hb hc (L2.map (· ++ ['\n']) ++ readLines rest)
  rw [ea, Option.bind_some, eb, Option.bind_some, ec, Option.bind_some, kpRows_skips hc.nil_skips, kpRows_long h2 _ _ (by simpa using hr)
    (by simpa using hex), Option.bind_none]

/-- A file with more weights than items is rejected. -/
theorem C79_knapsack_long_weights {nObjs nItems cap : Nat} {rows : List (List Nat)} {ws : List Nat} {L1 L2 L3 : List Text} {p x p' : Text}
    (h1 : Nums [nObjs, nItems, cap] L1) (h2 : Rows false rows L2) (h3 : ∀ l ∈ L3, NoContent l) (hp : Pad p) (hp' : Pad p')
    (hx : ListText ws x) (ho : nObjs ≤ usizeMax) (hi : nItems ≤ usizeMax) (hc : cap ≤ usizeMax)
    (hr : ∀ row ∈ rows, row.length = nItems ∧ ∀ v ∈ row, v ≤ usizeMax) (hw : ∀ v ∈ ws, v ≤ usizeMax) (hl : nItems < ws.length) (rest : Text) :
    KnapsackData.parseMoolib (unlines (L1 ++ (L2 ++ (L3 ++ [p ++ (x ++ p')]))) ++ rest) = none := by
  have hnl : ∀ l ∈ L1 ++ (L2 ++ (L3 ++ [p ++ (x ++ p')])), '\n' ∉ l := by
    intro l hl
    simp only [List.mem_append, List.mem_singleton] at hl
    obtain hl | hl | hl | rfl := hl
    · exact h1.newline l hl
    · exact h2.newline l hl
    · exact (h3 l hl).newline
    · simp only [List.mem_append, not_or]
      exact ⟨hp.newline, newline_listText hx, hp'.newline⟩
  have e : (L1 ++ (L2 ++ (L3 ++ [p ++ (x ++ p')]))).map (· ++ ['\n']) ++ readLines rest =
      L1.map (· ++ ['\n']) ++ (L2.map (· ++ ['\n']) ++ (L3.map (· ++ ['\n']) ++ ((p ++ (x ++ p') ++ ['\n']) :: readLines rest))) := by
    simp
  rw [KnapsackData.parseMoolib, readLines_unlines hnl, e]
  obtain ⟨La, ha, ea⟩ := numLine_ok h1 ho (L2.map (· ++ ['\n']) ++ (L3.map (· ++ ['\n']) ++ ((p ++ (x ++ p') ++ ['\n']) :: readLines rest)))
  obtain ⟨Lb, hb, eb⟩ := numLine_ok ha hi (L2.map (· ++ ['\n']) ++ (L3.map (· ++ ['\n']) ++ ((p ++ (x ++ p') ++ ['\n']) :: readLines rest)))
  obtain ⟨Lc, hc, ec⟩ := numLine_ok hb hc (L2.map (· ++ ['\n']) ++ (L3.map (· ++ ['\n']) ++ ((p ++ (x ++ p') ++ ['\n']) :: readLines rest)))
  have hlen : ∀ (rows : List (List Nat)) (items : List KnapsackItem), (∀ row ∈ rows, row.length = items.length) →
      (rows.foldl pushRow items).length = items.length := by
    intro rows
    induction rows with
    | nil => exact fun _ _ => rfl
    | cons row rows ih =>
      intro items h
      have h0 := h row List.mem_cons_self
      rw [List.foldl_cons, ih _ (fun r hr => by rw [length_pushRow h0]; exact h r (List.mem_cons_of_mem _ hr)), length_pushRow h0]
  rw [ea, Option.bind_some, eb, Option.bind_some, ec, Option.bind_some, kpRows_skips hc.nil_skips, kpRows_ok h2 _ _ (by simpa using hr),
    Option.bind_some, kpWeights_long h3 hp hp' hx ?_ hw, Option.bind_none]
  rw [hlen rows _ (by simpa using fun r h => (hr r h).1)]
  simpa using hl

/-- A file that is accepted gives a value for every item and objective. -/
theorem C79_knapsack_accepted {t : Text} {d : KnapsackData} (h : KnapsackData.parseMoolib t = some d) :
    ∃ nObjs, ∀ it ∈ d.items, it.values.length = nObjs := by
  simp only [KnapsackData.parseMoolib, Option.bind_eq_some_iff] at h
  obtain ⟨p, _, q, _, c, _, r, _, items, _, h⟩ := h
  by_cases ha : items.all (fun it => it.values.length == p.1) = true
  · rw [if_pos ha] at h
    cases h
    refine ⟨p.1, fun it hit => ?_⟩
    simpa using List.all_eq_true.1 ha it hit
  · rw [if_neg ha] at h
    cases h

def kpDemo : KnapsackData := ⟨[⟨3, [10, 4]⟩, ⟨5, [0, 7]⟩], 6⟩

def kpDemoLines : List Text :=
  ["# two objectives".toList, "2".toList, "".toList, " 2 # items".toList, "6\r".toList, "[[10, 0],".toList, "  [ 4 , 7]]".toList,
    "# weights".toList, "[3,5]".toList]

theorem blank_nil : Blank [] := fun _ h => absurd h List.not_mem_nil
theorem pad_nil : Pad [] := fun _ h => absurd h List.not_mem_nil
theorem blank_space : Blank [' '] := by
  intro c hc
  rw [List.mem_singleton] at hc
  subst hc
  decide
theorem tail_nil : LineTail [] := ⟨[], [], rfl, .inl rfl, .inl rfl⟩

theorem kpDemo_long : KnapsackData.parseMoolib (unlines ["1".toList, "2".toList, "6".toList, "[[10,0,1]]".toList, "[3,5]".toList]) = none := by
  cbv

theorem kpDemo_file : KnapsackFile kpDemo 2 kpDemoLines := by
  refine ⟨["# two objectives".toList, "2".toList, "".toList, " 2 # items".toList, "6\r".toList], ["[[10, 0],".toList, "  [ 4 , 7]]".toList],
    ["# weights".toList], [], "[3,5]".toList, [], rfl, ?_, ?_, ?_, pad_nil, pad_nil, ?_⟩
  · refine .skip _ _ _ (.inr ⟨[], " two objectives".toList, rfl, pad_nil, by decide⟩) ?_
    refine .num _ _ _ _ ⟨[], [], [], rfl, blank_nil, blank_nil, tail_nil⟩ ?_
    refine .skip _ _ _ (.inl pad_nil) ?_
    refine .num _ _ _ _ ⟨[' '], [' '], "# items".toList, rfl, blank_space, blank_space,
      ⟨"# items".toList, [], rfl, .inl rfl, .inr ⟨" items".toList, rfl, by decide, by decide⟩⟩⟩ ?_
    exact .num _ _ _ _ ⟨[], [], ['\r'], rfl, blank_nil, blank_nil, ⟨[], ['\r'], rfl, .inr rfl, .inl rfl⟩⟩ .nil
  · refine .more false [] [] "[10, 0]".toList [] [10, 0] [[4, 7]] ["  [ 4 , 7]]".toList] pad_nil pad_nil
      ⟨[], "10, 0]".toList, rfl, blank_nil, .more 10 [] [' '] [0] "0]".toList blank_nil blank_space (.last 0 [] blank_nil)⟩ blank_nil ?_
    refine .last true [' ', ' '] [] "[ 4 , 7]".toList [] [4, 7] ?_ pad_nil
      ⟨[' '], "4 , 7]".toList, rfl, blank_space, .more 4 [' '] [' '] [7] "7]".toList blank_space blank_space (.last 7 [] blank_nil)⟩ blank_nil
    intro c hc
    simp at hc
    subst hc
    decide
  · intro l hl
    rw [List.mem_singleton] at hl
    subst hl
    exact .inr ⟨[], " weights".toList, rfl, pad_nil, by decide⟩
  · exact ⟨[], "3,5]".toList, rfl, blank_nil, .more 3 [] [] [5] "5]".toList blank_nil blank_nil (.last 5 [] blank_nil)⟩

example : KnapsackData.parseMoolib (unlines kpDemoLines) = some kpDemo := by
  have := C79_knapsack kpDemo_file ⟨by decide, by decide, by decide, by decide, by decide⟩ []
  rwa [List.append_nil] at this

/-- A file that gives fewer weights than items is accepted: the other items have weight 0. -/
theorem C79_violated_missing_weights :
    KnapsackData.parseMoolib "1\n3\n7\n[[1,2,3]]\n[5]\n".toList = some ⟨[⟨5, [1]⟩, ⟨0, [2]⟩, ⟨0, [3]⟩], 7⟩ := by
  decide_cbv

/-- A file in the format of vOptLib without the number of constraints is read as the knapsack with capacity 0. -/
theorem C79_voptlib_partial {d : KnapsackData} {nObjs : Nat} {L : List Text}
    (h : Nums ([d.items.length, nObjs] ++ ((List.range nObjs).flatMap fun k => d.items.map fun it => it.values.getD k 0) ++
      d.items.map (·.weight)) L) (hd : d.NumbersFit nObjs) (hn : nObjs ≤ u32Max) (rest : Text) :
    KnapsackData.parseVoptlib (unlines L ++ rest) = some ⟨d.items, 0⟩ := by
  rw [KnapsackData.parseVoptlib, readLines_unlines h.newline]
  rw [List.append_assoc] at h
  obtain ⟨La, ha, ea⟩ := numLine_ok h hd.items (readLines rest)
  obtain ⟨l, Lb, hl, hb, eb⟩ := nextLine_num ha (readLines rest)
  rw [ea, Option.bind_some, eb, Option.bind_some, singleValue_ok hl hn, Option.bind_some, Option.bind_some]
  have hrows : ∀ row ∈ (List.range nObjs).map (fun k => d.items.map fun it => it.values.getD k 0),
      row.length = (List.replicate d.items.length (⟨0, []⟩ : KnapsackItem)).length ∧ ∀ v ∈ row, v ≤ usizeMax := by
    intro row hrow
    obtain ⟨k, hk, rfl⟩ := List.mem_map.1 hrow
    refine ⟨by simp, fun v hv => ?_⟩
    obtain ⟨it, hit, rfl⟩ := List.mem_map.1 hv
    have hl := (hd.values it hit).1
    have hk := List.mem_range.1 hk
    rw [List.getD_eq_getElem?_getD, List.getElem?_eq_getElem (by omega), Option.getD_some]
    exact (hd.values it hit).2 _ (List.getElem_mem _)
  have hb' : Nums (((List.range nObjs).map fun k => d.items.map fun it => it.values.getD k 0).flatten ++ (d.items.map (·.weight) ++ [])) Lb := by
    rw [List.append_nil, ← List.flatMap_def]
    exact hb
  obtain ⟨Lc, hc, ec⟩ := voptObjs_ok _ (List.replicate d.items.length ⟨0, []⟩) Lb (readLines rest) hrows hb'
  rw [List.length_map, List.length_range] at ec
  rw [ec, Option.bind_some]
  have hw : ∀ v ∈ d.items.map (·.weight), v ≤ usizeMax := by
    intro v hv
    obtain ⟨it, hit, rfl⟩ := List.mem_map.1 hv
    exact hd.weights it hit
  obtain ⟨Ld, _, ed⟩ := readNums_ok hw hc (readLines rest)
  rw [List.length_map] at ed
  rw [ed, Option.map_some, pushRows_all d.items nObjs (fun it hit => (hd.values it hit).1) nObjs (Nat.le_refl _)]
  have hitems : List.zipWith (fun (it : KnapsackItem) v => { it with weight := v }) (d.items.map fun it => ⟨0, it.values.take nObjs⟩)
      (d.items.map (·.weight)) = d.items := by
    rw [List.zipWith_map, List.zipWith_self]
    conv => rhs; rw [← List.map_id d.items]
    apply List.map_congr_left
    intro it hit
    rw [List.take_of_length_le (by rw [(hd.values it hit).1])]
    rfl
  simp only [hitems]

example : KnapsackData.parseVoptlib "2\n1\n5\n6\n2\n3\n".toList = some ⟨[⟨2, [5]⟩, ⟨3, [6]⟩], 0⟩ := by
  have h : Nums ([2, 1] ++ ((List.range 1).flatMap fun k => [(⟨2, [5]⟩ : KnapsackItem), ⟨3, [6]⟩].map fun it => it.values.getD k 0) ++ [2, 3])
      ["2".toList, "1".toList, "5".toList, "6".toList, "2".toList, "3".toList] := by
    have num : ∀ n l, l = showNat n → NumText n l := fun n l e => ⟨[], [], [], by simp [e], blank_nil, blank_nil, tail_nil⟩
    exact .num _ _ _ _ (num 2 _ rfl) (.num _ _ _ _ (num 1 _ rfl) (.num _ _ _ _ (num 5 _ rfl) (.num _ _ _ _ (num 6 _ rfl)
      (.num _ _ _ _ (num 2 _ rfl) (.num _ _ _ _ (num 3 _ rfl) .nil)))))
  exact C79_voptlib_partial (d := ⟨[⟨2, [5]⟩, ⟨3, [6]⟩], 9⟩) h ⟨by decide, by decide, by decide, by decide, by decide⟩ (by decide) []

/-- No file in the format of vOptLib is read with its capacity: it is always 0. -/
theorem C79_violated_voptlib_capacity {t : Text} {d : KnapsackData} (h : KnapsackData.parseVoptlib t = some d) : d.capacity = 0 := by
  simp only [KnapsackData.parseVoptlib, Option.bind_eq_some_iff, Option.map_eq_some_iff] at h
  obtain ⟨_, _, _, _, _, _, _, _, _, _, _, _, rfl⟩ := h
  rfl

/-- A file in the format of vOptLib is read with all numbers shifted: the number of constraints is taken for the first value. -/
theorem C79_violated_voptlib_shift : ∃ (d d' : KnapsackData) (L : List Text), Nums (d.voptNums 1) L ∧ d.NumbersFit 1 ∧
    KnapsackData.parseVoptlib (unlines L) = some d' ∧ d'.items ≠ d.items := by
  refine ⟨⟨[⟨2, [5]⟩, ⟨3, [6]⟩], 4⟩, ⟨[⟨6, [1]⟩, ⟨2, [5]⟩], 0⟩,
    ["2".toList, "1".toList, "1".toList, "5".toList, "6".toList, "2".toList, "3".toList, "4".toList], ?_, ⟨?_, ?_, ?_, ?_, ?_⟩, ?_, ?_⟩
  · have num : ∀ n l, l = showNat n → NumText n l := fun n l e => ⟨[], [], [], by simp [e], blank_nil, blank_nil, tail_nil⟩
    exact .num _ _ _ _ (num 2 _ rfl) (.num _ _ _ _ (num 1 _ rfl) (.num _ _ _ _ (num 1 _ rfl) (.num _ _ _ _ (num 5 _ rfl)
      (.num _ _ _ _ (num 6 _ rfl) (.num _ _ _ _ (num 2 _ rfl) (.num _ _ _ _ (num 3 _ rfl) (.num _ _ _ _ (num 4 _ rfl) .nil)))))))
  all_goals decide_cbv

/-! ### Facility location -/

/-- A facility location problem in the format of vOptLib is read with its costs, whatever follows in the file. -/
theorem C79_facility {customers facilities : Nat} {supply : Nat → Nat → Nat → Nat} {opening : Nat → Nat → Nat} {L : List Text}
    (h : FacilityFile customers facilities supply opening L) (hc : customers ≤ u32Max) (hf : facilities ≤ u32Max)
    (hs : ∀ k i j, supply k i j ≤ usizeMax) (ho : ∀ k j, opening k j ≤ usizeMax) (rest : Text) :
    ∃ d, FacilityData.parseVoptlib (unlines L ++ rest) = some d ∧ d.nObjs = 2 ∧ d.nCustomers = customers ∧ d.nFacilities = facilities ∧
      (∀ k i j, k < 2 → i < customers → j < facilities → d.supplyCost k i j = some (supply k i j)) ∧
      (∀ k j, k < 2 → j < facilities → d.openingCost k j = some (opening k j)) ∧
      d.supply.length = 2 * customers * facilities ∧ d.opening.length = 2 * facilities := by
  obtain ⟨l1, l2, b1, b2, b3, b4, r1, r2, C1, C2, rfl, hl1, hl2, hb, hC1, hS1, hC2, hS2, hr1, hr2⟩ := h
  have hnl : ∀ l ∈ [l1, l2] ++ (b1 :: C1) ++ (b2 :: C2) ++ [b3, r1, b4, r2], '\n' ∉ l := by
    intro l hl
    simp only [List.mem_append, List.mem_cons, List.not_mem_nil, or_false] at hl
    obtain (((rfl | rfl) | (rfl | hl)) | (rfl | hl)) | (rfl | rfl | rfl | rfl) := hl
    · exact hl1.newline
    · exact hl2.newline
    · exact hb _ (by simp)
    · obtain ⟨i, hi, e⟩ := List.getElem_of_mem hl
      exact (hS1 i l (by rw [List.getElem?_eq_getElem hi, e])).newline
    · exact hb _ (by simp)
    · obtain ⟨i, hi, e⟩ := List.getElem_of_mem hl
      exact (hS2 i l (by rw [List.getElem?_eq_getElem hi, e])).newline
    · exact hb _ (by simp)
    · exact hr1.newline
    · exact hb _ (by simp)
    · exact hr2.newline
  have e : ([l1, l2] ++ (b1 :: C1) ++ (b2 :: C2) ++ [b3, r1, b4, r2]).map (· ++ ['\n']) ++ readLines rest =
      (l1 ++ ['\n']) :: (l2 ++ ['\n']) :: (b1 ++ ['\n']) :: (C1.map (· ++ ['\n']) ++ ((b2 ++ ['\n']) :: (C2.map (· ++ ['\n']) ++
        ((b3 ++ ['\n']) :: (r1 ++ ['\n']) :: (b4 ++ ['\n']) :: (r2 ++ ['\n']) :: readLines rest)))) := by
    simp
  have p1 := plainRows_ok (facilities := facilities) (f := supply 0) (hs 0) C1 0
    ((b2 ++ ['\n']) :: (C2.map (· ++ ['\n']) ++ ((b3 ++ ['\n']) :: (r1 ++ ['\n']) :: (b4 ++ ['\n']) :: (r2 ++ ['\n']) :: readLines rest)))
    (by simpa using hS1)
  have p2 := plainRows_ok (facilities := facilities) (f := supply 1) (hs 1) C2 0
    ((b3 ++ ['\n']) :: (r1 ++ ['\n']) :: (b4 ++ ['\n']) :: (r2 ++ ['\n']) :: readLines rest) (by simpa using hS2)
  have q : ∀ k, ∀ v ∈ (List.range facilities).map (opening k), v ≤ usizeMax := by
    intro k v hv
    obtain ⟨j, _, rfl⟩ := List.mem_map.1 hv
    exact ho k j
  rw [hC1] at p1
  rw [hC2] at p2
  have hlen : ∀ k i, ((List.range facilities).map (supply k i)).length = facilities := by simp
  have hL1 := length_rows (hlen 0) customers 0
  have hL2 := length_rows (hlen 1) customers 0
  refine ⟨⟨2, customers, facilities, (List.range' 0 customers).flatMap (fun i => (List.range facilities).map (supply 0 i)) ++
    (List.range' 0 customers).flatMap (fun i => (List.range facilities).map (supply 1 i)),
    (List.range facilities).map (opening 0) ++ (List.range facilities).map (opening 1)⟩, ?_, rfl, rfl, rfl, ?_, ?_, ?_, ?_⟩
  · rw [FacilityData.parseVoptlib, readLines_unlines hnl, e]
    simp only [plainNum, singleValue_ok hl1 hc, singleValue_ok hl2 hf, Option.map_some, Option.bind_some, plainBlock, p1, p2, plainRows,
      sepLine_ok hr1 (q 0), sepLine_ok hr2 (q 1), List.append_nil]
  · intro k i j hk hi hj
    rw [FacilityData.supplyCost]
    simp only
    obtain rfl | rfl : k = 0 ∨ k = 1 := by omega
    · rw [Nat.zero_mul, Nat.zero_mul, Nat.zero_add, getElem?_rows (hlen 0) customers 0 i j hi hj, List.getElem?_map,
        List.getElem?_range hj, Option.map_some, Nat.zero_add]
    · have := getElem?_rows (hlen 1) customers 0 i j hi hj []
      rw [List.append_nil] at this
      rw [Nat.one_mul, List.getElem?_append_right (by rw [hL1, Nat.mul_comm customers]; omega), hL1,
        show facilities * customers + i * facilities + j - customers * facilities = i * facilities + j by
          rw [Nat.mul_comm customers]; omega, this, List.getElem?_map, List.getElem?_range hj, Option.map_some, Nat.zero_add]
  · intro k j hk hj
    rw [FacilityData.openingCost]
    simp only
    obtain rfl | rfl : k = 0 ∨ k = 1 := by omega
    · rw [Nat.zero_mul, Nat.zero_add, List.getElem?_append_left (by simpa using hj), List.getElem?_map, List.getElem?_range hj, Option.map_some]
    · rw [Nat.one_mul, List.getElem?_append_right (by simp), List.length_map, List.length_range, Nat.add_sub_cancel_left, List.getElem?_map,
        List.getElem?_range hj, Option.map_some]
  · simp only [List.length_append, hL1, hL2]
    ring
  · simp
    omega

def facDemoLines : List Text :=
  ["2".toList, "2 # facilities".toList, "costs".toList, "1 2".toList, "3 4 ".toList, "".toList, "5 6".toList, "7 8".toList, "opening".toList,
    " 9\t10".toList, "".toList, "11 12".toList]

example : ∃ d, FacilityData.parseVoptlib (unlines facDemoLines) = some d ∧ d.supplyCost 1 0 1 = some 6 ∧ d.openingCost 1 0 = some 11 := by
  have two : ∀ a b p, Pad p → SepLine [a, b] (showNat a ++ (' ' :: showNat b ++ p)) := fun a b p hp =>
    ⟨[], showNat a ++ ([' '] ++ showNat b), p, by simp, blank_nil, .more a [' '] [b] _ blank_space (by decide) (.last b), hp⟩
  have h : FacilityFile 2 2 (fun k i j => min (4 * k + 2 * i + j + 1) 8) (fun k j => min (9 + 2 * k + j) 12) facDemoLines := by
    refine ⟨"2".toList, "2 # facilities".toList, "costs".toList, "".toList, "opening".toList, "".toList, " 9\t10".toList, "11 12".toList,
      ["1 2".toList, "3 4 ".toList], ["5 6".toList, "7 8".toList], rfl, ⟨[], [], [], rfl, blank_nil, blank_nil, tail_nil⟩,
      ⟨[], [' '], "# facilities".toList, rfl, blank_nil, blank_space,
        ⟨"# facilities".toList, [], rfl, .inl rfl, .inr ⟨" facilities".toList, rfl, by decide, by decide⟩⟩⟩, by decide, rfl, ?_, rfl, ?_, ?_, ?_⟩
    · intro i l hl
      match i with
      | 0 => cases hl; exact two 1 2 [] pad_nil
      | 1 =>
        cases hl
        refine two 3 4 [' '] fun c hc => ?_
        rw [List.mem_singleton] at hc
        subst hc
        decide
      | i + 2 => cases hl
    · intro i l hl
      match i with
      | 0 => cases hl; exact two 5 6 [] pad_nil
      | 1 => cases hl; exact two 7 8 [] pad_nil
      | i + 2 => cases hl
    · refine ⟨[' '], "9\t10".toList, [], rfl, blank_space, .more 9 ['\t'] [10] "10".toList ?_ (by decide) (.last 10), pad_nil⟩
      intro c hc
      rw [List.mem_singleton] at hc
      subst hc
      decide
    · exact two 11 12 [] pad_nil
  obtain ⟨d, hd, _, _, _, h1, h2, _⟩ := C79_facility h (by decide) (by decide) (fun k i j => Nat.le_trans (Nat.min_le_right _ _) (by decide))
    (fun k j => Nat.le_trans (Nat.min_le_right _ _) (by decide)) []
  rw [List.append_nil] at hd
  exact ⟨d, hd, h1 1 0 1 (by decide) (by decide) (by decide), h2 1 0 (by decide) (by decide)⟩

/-- A file with a row that is too short is accepted; the cost of the last facility is then that of another customer, and the last cost is
missing. -/
theorem C79_violated_facility_rows : ∃ d, FacilityData.parseVoptlib "1\n2\n\n1\n\n5 6\n\n7 8\n\n9 10\n".toList = some d ∧
    d.supplyCost 0 0 1 = some 5 ∧ d.supplyCost 1 0 1 = none :=
  ⟨⟨2, 1, 2, [1, 5, 6], [7, 8, 9, 10]⟩, by decide_cbv, by decide, by decide⟩

/-! ### Assignment problems -/

theorem apLines_skips {n nObjs fuel : Nat} (hf : 0 < fuel) : ∀ (L : List Text), (∀ l ∈ L, NoContent l) → ∀ (st : ApState) (ls : List Text),
    apLines n nObjs fuel st (L.map (· ++ ['\n']) ++ ls) = apLines n nObjs fuel st ls := by
  intro L hL st ls
  induction L with
  | nil => rfl
  | cons l L ih =>
    rw [List.map_cons, List.cons_append, apLines]
    have : apLine n nObjs fuel st (trimStart (l ++ ['\n'])) = .done (some st) := by
      cases fuel with
      | zero => omega
      | succ f => rw [apLine, apTurn_noContent (hL l List.mem_cons_self)]
    rw [this]
    exact ih fun l hl => hL l (List.mem_cons_of_mem _ hl)

/-- A file whose first row has more costs than there are agents is not accepted. -/
theorem C79_assignment_long_row {nObjs nTasks : Nat} {L : List Text} {b b1 b2 x s : Text} {row : List Nat} (hL : Nums [nObjs, nTasks] L)
    (hb : LineStart b) (hb1 : Break b1) (hb2 : Break b2) (hx : ListText row x) (ho : nObjs ≤ usizeMax) (hn : nTasks ≤ usizeMax) (hpos : 0 < nObjs)
    (hpos' : 0 < nTasks) (hv : ∀ v ∈ row, v ≤ usizeMax) (hl : nTasks < row.length) :
    ∃ F, ∀ fuel, F ≤ fuel → ∀ d, AssignmentData.parseMoolib fuel (unlines L ++ (b ++ ('[' :: (b1 ++ ('[' :: (b2 ++ (x ++ s))))))) ≠ .done (some d) := by
  have hlen : nTasks ≤ nObjs * nTasks * nTasks := by
    rw [Nat.mul_assoc]
    exact Nat.le_trans (Nat.le_mul_of_pos_right _ hpos') (Nat.le_mul_of_pos_left _ hpos)
  obtain ⟨q, hq⟩ := hx.head
  obtain ⟨r, hr, key⟩ := at_row_long (n := nTasks) (nObjs := nObjs) (s := s) (st := ⟨2, 0, 0, List.replicate (nObjs * nTasks * nTasks) 0⟩) rfl hx hv hl
    (by simpa using hlen)
  subst hq
  have k2 : AtText nTasks nObjs (apTurn nTasks nObjs) ⟨1, 0, 0, List.replicate (nObjs * nTasks * nTasks) 0⟩ ('[' :: (b2 ++ ('[' :: q ++ s))) r := by
    refine at_open (show 1 < 2 by decide) ?_
    refine at_break (.inr (.inr (.inl rfl))) hb2 ⟨'[', _, rfl, by decide⟩ (fun _ => ?_) ?_
    · rw [AtText, List.cons_append, lineOf_cons (by decide)] at key ⊢
      rw [close_open]
      exact key
    · rw [AtText, List.cons_append, lineOf_cons (by decide)] at key ⊢
      rw [turn_open_row rfl]
      exact key
  have k1 : AtText nTasks nObjs (apTurn nTasks nObjs) ⟨0, 0, 0, List.replicate (nObjs * nTasks * nTasks) 0⟩
      ('[' :: (b1 ++ ('[' :: (b2 ++ ('[' :: q ++ s))))) r := by
    refine at_open (show 0 < 2 by decide) ?_
    refine at_break (.inr (.inr (.inl rfl))) hb1 ⟨'[', _, rfl, by decide⟩ (fun h => ?_) k2
    have := at_row_next (c := '[') (by simp) (by decide) (by decide) h
    rw [AtText, lineOf_cons (by decide)] at this ⊢
    rw [close_open]
    exact this
  obtain ⟨F, hF⟩ := goes_lineStart hb ⟨'[', _, rfl, by decide⟩ k1
  refine ⟨F + 1, fun fuel hfuel d => ?_⟩
  have hfin := hF fuel fuel (by omega) (by omega)
  rw [apFinish] at hfin
  rw [AssignmentData.parseMoolib, readLines_unlines hL.newline]
  obtain ⟨La, ha, ea⟩ := numLine_ok hL ho (readLines (b ++ ('[' :: (b1 ++ ('[' :: (b2 ++ ('[' :: q ++ s)))))))
  obtain ⟨Lb, hLb, eb⟩ := numLine_ok ha hn (readLines (b ++ ('[' :: (b1 ++ ('[' :: (b2 ++ ('[' :: q ++ s)))))))
  rw [ea]
  simp only [eb]
  rw [apLines_skips (by omega) Lb hLb.nil_skips, hfin]
  rcases hr with rfl | rfl <;> simp

/-- Non-vacuity. -/
example : AssignmentData.parseMoolib 40 "1\n2\n[[[1,2,3],[4,5]]]\n".toList = .done none := by cbv

example : AssignmentData.parseMoolib 40 "1\n2\n[[[1,2],[4,5]]]\n".toList = .done (some ⟨2, 1, [1, 2, 4, 5]⟩) := by cbv

/-- An assignment problem in the format of MOO-Library is read with its costs. -/
theorem C79_assignment {nObjs nTasks : Nat} {cost : Nat → Nat → Nat → Nat} {t : Text} (h : AssignmentFile nObjs nTasks cost t)
    (ho : nObjs ≤ usizeMax) (hn : nTasks ≤ usizeMax) (hc : ∀ k i g, cost k i g ≤ usizeMax) :
    ∃ d F, (∀ fuel, F ≤ fuel → AssignmentData.parseMoolib fuel t = .done (some d)) ∧ d.nObjs = nObjs ∧ d.nTasks = nTasks ∧
      (∀ k i g, k < nObjs → i < nTasks → g < nTasks → d.cost i g k = some (cost k i g)) ∧ d.costs.length = nObjs * nTasks * nTasks := by
  obtain ⟨L, b, x, e, rfl, hL, hb, he, hx⟩ := h
  have hrow : ∀ k, ∀ rows ∈ [(List.range nTasks).map fun i => (List.range nTasks).map (cost k i)],
      rows.length = nTasks ∧ ∀ row ∈ rows, row.length = nTasks ∧ ∀ v ∈ row, v ≤ usizeMax := by
    intro k rows hm
    rw [List.mem_singleton] at hm
    subst hm
    refine ⟨by simp, fun row hr => ?_⟩
    obtain ⟨i, _, rfl⟩ := List.mem_map.1 hr
    refine ⟨by simp, fun v hv => ?_⟩
    obtain ⟨g, _, rfl⟩ := List.mem_map.1 hv
    exact hc k i g
  have hr : ∀ rows ∈ (List.range nObjs).map fun k => (List.range nTasks).map fun i => (List.range nTasks).map (cost k i),
      rows.length = nTasks ∧ ∀ row ∈ rows, row.length = nTasks ∧ ∀ v ∈ row, v ≤ usizeMax := by
    intro rows hm
    obtain ⟨k, _, rfl⟩ := List.mem_map.1 hm
    exact hrow k _ (List.mem_singleton.2 rfl)
  have key := at_all (n := nTasks) (nObjs := nObjs) hx he hr (by simp) (List.replicate (nObjs * nTasks * nTasks) 0) (by simp [Nat.mul_assoc])
  have hpos : 0 < nObjs := by
    obtain ⟨_, _, _, _, hx⟩ := hx
    cases nObjs with
    | zero => cases hx
    | succ _ => exact Nat.succ_pos _
  have hstart : Starts (x ++ e) := by
    obtain ⟨b, q, rfl, _⟩ := hx
    exact ⟨'[', _, rfl, by decide⟩
  obtain ⟨F, hF⟩ := goes_lineStart hb hstart key
  rw [List.drop_of_length_le (by simp [Nat.mul_assoc]), List.append_nil] at hF
  have hflat : (((List.range nObjs).map fun k => (List.range nTasks).map fun i => (List.range nTasks).map (cost k i)).flatten).flatten =
      (List.range' 0 nObjs).flatMap fun k => (List.range' 0 nTasks).flatMap fun i => (List.range nTasks).map (cost k i) := by
    rw [← List.flatMap_def, List.flatten_eq_flatMap, List.flatMap_assoc, ← List.range_eq_range', ← List.range_eq_range']
    simp only [List.flatMap_map, id_eq]
  rw [hflat] at hF
  have hlen1 : ∀ k i, ((List.range nTasks).map (cost k i)).length = nTasks := by simp
  have hlen2 : ∀ k, ((List.range' 0 nTasks).flatMap fun i => (List.range nTasks).map (cost k i)).length = nTasks * nTasks :=
    fun k => length_rows (hlen1 k) nTasks 0
  refine ⟨⟨nTasks, nObjs, (List.range' 0 nObjs).flatMap fun k => (List.range' 0 nTasks).flatMap fun i => (List.range nTasks).map (cost k i)⟩, F,
    fun fuel hfuel => ?_, rfl, rfl, ?_, ?_⟩
  · rw [AssignmentData.parseMoolib, readLines_unlines hL.newline]
    obtain ⟨La, ha, ea⟩ := numLine_ok hL ho (readLines (b ++ (x ++ e)))
    obtain ⟨Lb, hLb, eb⟩ := numLine_ok ha hn (readLines (b ++ (x ++ e)))
    rw [ea]
    simp only [eb]
    have hskip : ∀ (L : List Text), (∀ l ∈ L, NoContent l) → ∀ (st : ApState) (ls : List Text), 0 < fuel →
        apLines nTasks nObjs fuel st (L.map (· ++ ['\n']) ++ ls) = apLines nTasks nObjs fuel st ls := by
      intro L hL st ls hf
      induction L with
      | nil => rfl
      | cons l L ih =>
        rw [List.map_cons, List.cons_append, apLines]
        have : apLine nTasks nObjs fuel st (trimStart (l ++ ['\n'])) = .done (some st) := by
          cases fuel with
          | zero => omega
          | succ f => rw [apLine, apTurn_noContent (hL l List.mem_cons_self)]
        rw [this]
        exact ih fun l hl => hL l (List.mem_cons_of_mem _ hl)
    have hfin := hF fuel fuel hfuel hfuel
    have hpos' : 0 < fuel := by
      cases fuel with
      | zero =>
        rw [readLines_cons _ (by
          obtain ⟨c, s, hs, _⟩ := hstart
          rw [hs]
          simp)] at hfin
        rw [apFinish, apLines, apLine] at hfin
        cases hfin
      | succ _ => exact Nat.succ_pos _
    rw [hskip Lb hLb.nil_skips _ _ hpos']
    rw [apFinish] at hfin
    rw [hfin]
    simp only
    rw [if_pos (by omega)]
  · intro k i g hk hi hg
    rw [AssignmentData.cost]
    simp only
    have h1 := getElem?_rows hlen2 nObjs 0 k (i * nTasks + g) hk (by
      calc i * nTasks + g < i * nTasks + nTasks := by omega
        _ = (i + 1) * nTasks := by ring
        _ ≤ nTasks * nTasks := Nat.mul_le_mul_right _ hi) []
    have h2 := getElem?_rows (hlen1 k) nTasks 0 i g hi hg []
    rw [List.append_nil] at h1 h2
    rw [show k * nTasks * nTasks + i * nTasks + g = k * (nTasks * nTasks) + (i * nTasks + g) by ring, h1, Nat.zero_add, h2, Nat.zero_add,
      List.getElem?_map, List.getElem?_range hg, Option.map_some]
  · simp only
    rw [length_rows hlen2, Nat.mul_assoc]

def apDemo : Text := "2 # objectives\n2\n\n[[[1,2],\n# second task\n  [ 3 , 4 ]],\n [[5,6],[7,8]]\n]\n# end\n".toList

example : ∃ d, AssignmentData.parseMoolib 9 apDemo = .done (some d) ∧ d.cost 1 0 0 = some 3 ∧ d.cost 0 1 1 = some 6 :=
  ⟨⟨2, 2, [1, 2, 3, 4, 5, 6, 7, 8]⟩, by cbv, by decide, by decide⟩

/-- The example has the format. -/
theorem apDemo_file : AssignmentFile 2 2 (fun k i g => 4 * k + 2 * i + g + 1) apDemo := by
  have hpad : Pad [' '] := fun c hc => by rw [List.mem_singleton] at hc; subst hc; decide
  have hpad2 : Pad [' ', ' '] := fun c hc => by simp at hc; subst hc; decide
  refine ⟨["2 # objectives".toList, "2".toList], ['\n'], "[[[1,2],\n# second task\n  [ 3 , 4 ]],\n [[5,6],[7,8]]\n]".toList, "\n# end\n".toList,
    rfl, ?_, .line [] [] (.inl pad_nil) (.pad [] pad_nil), ?_, ?_⟩
  · refine .num _ _ _ _ ⟨[], [' '], "# objectives".toList, rfl, blank_nil, blank_space,
      ⟨"# objectives".toList, [], rfl, .inl rfl, .inr ⟨" objectives".toList, rfl, by decide, by decide⟩⟩⟩ ?_
    exact .num _ _ _ _ ⟨[], [], [], rfl, blank_nil, blank_nil, tail_nil⟩ .nil
  · refine .inr ⟨[], ["# end".toList], rfl, .inl pad_nil, fun l hl => ?_⟩
    rw [List.mem_singleton] at hl
    subst hl
    exact .inr ⟨[], " end".toList, rfl, pad_nil, by decide⟩
  · have two : ∀ a b, ListText [a, b] ('[' :: (showNat a ++ (',' :: (showNat b ++ [']'])))) := fun a b =>
      ⟨[], showNat a ++ ([] ++ ',' :: ([] ++ (showNat b ++ ([] ++ [']'])))), by simp, blank_nil,
        .more a [] [] [b] _ blank_nil blank_nil (.last b [] blank_nil)⟩
    refine ⟨[], "[[1,2],\n# second task\n  [ 3 , 4 ]],\n [[5,6],[7,8]]\n]".toList, rfl, .none, ?_⟩
    refine .more [[1, 2], [3, 4]] "[[1,2],\n# second task\n  [ 3 , 4 ]]".toList [] "\n ".toList [[[5, 6], [7, 8]]] "[[5,6],[7,8]]\n]".toList ?_ .none
      (.line [] [' '] (.inl pad_nil) (.pad _ hpad)) ?_
    · refine ⟨[], "[1,2],\n# second task\n  [ 3 , 4 ]]".toList, rfl, .none, ?_⟩
      refine .more [1, 2] "[1,2]".toList [] "\n# second task\n  ".toList [[3, 4]] "[ 3 , 4 ]]".toList (two 1 2) .none
        (.line [] "# second task\n  ".toList (.inl pad_nil) (.line "# second task".toList [' ', ' ']
          (.inr ⟨[], " second task".toList, rfl, pad_nil, by decide⟩) (.pad _ hpad2))) ?_
      refine .last [3, 4] "[ 3 , 4 ]".toList [] ⟨[' '], "3 , 4 ]".toList, rfl, blank_space, ?_⟩ .none
      exact .more 3 [' '] [' '] [4] "4 ]".toList blank_space blank_space (.last 4 [' '] blank_space)
    · refine .last [[5, 6], [7, 8]] "[[5,6],[7,8]]".toList ['\n'] ?_ (.line [] [] (.inl pad_nil) (.pad [] pad_nil))
      refine ⟨[], "[5,6],[7,8]]".toList, rfl, .none, ?_⟩
      exact .more [5, 6] "[5,6]".toList [] [] [[7, 8]] "[7,8]]".toList (two 5 6) .none .none (.last [7, 8] "[7,8]".toList [] (two 7 8) .none)

example : ∃ d F, (∀ fuel, F ≤ fuel → AssignmentData.parseMoolib fuel apDemo = .done (some d)) ∧ d.cost 1 1 1 = some 8 := by
  obtain ⟨d, F, h, _, _, hc, _⟩ := C79_assignment (cost := fun k i g => min (4 * k + 2 * i + g + 1) 8) (t := apDemo) (nObjs := 2) (nTasks := 2)
    (by
      obtain ⟨L, b, x, e, h1, h2, h3, h4, h5⟩ := apDemo_file
      exact ⟨L, b, x, e, h1, h2, h3, h4, h5⟩) (by decide) (by decide) (fun k i g => Nat.le_trans (Nat.min_le_right _ _) (by decide))
  exact ⟨d, F, h, hc 1 1 1 (by decide) (by decide) (by decide)⟩

/-- A file with a comma outside of the list makes the tool panic. -/
theorem C79_violated_assignment_comma (fuel : Nat) : AssignmentData.parseMoolib (fuel + 1) "1\n1\n,\n".toList = .panic := by
  have h1 : numLine usizeMax (readLines "1\n1\n,\n".toList) = some (1, ["1\n".toList, ",\n".toList]) := by decide_cbv
  have h2 : numLine usizeMax ["1\n".toList, ",\n".toList] = some (1, [",\n".toList]) := by decide_cbv
  have h3 : apTurn 1 1 ⟨0, 0, 0, [0]⟩ (trimStart ",\n".toList) = .panic := by decide_cbv
  rw [AssignmentData.parseMoolib, h1]
  simp only [h2]
  rw [apLines, apLine]
  simp only [show List.replicate (1 * 1 * 1) 0 = [0] from rfl, h3]

/-- A file with other text in place of the list makes the tool run forever. -/
theorem C79_violated_assignment_loop (fuel : Nat) : AssignmentData.parseMoolib fuel "1\n1\nx\n".toList = .running := by
  have h1 : numLine usizeMax (readLines "1\n1\nx\n".toList) = some (1, ["1\n".toList, "x\n".toList]) := by decide_cbv
  have h2 : numLine usizeMax ["1\n".toList, "x\n".toList] = some (1, ["x\n".toList]) := by decide_cbv
  have h3 : apTurn 1 1 ⟨0, 0, 0, [0]⟩ "x\n".toList = .next ⟨0, 0, 0, [0]⟩ "x\n".toList := by decide_cbv
  have h4 : ∀ f, apLine 1 1 f ⟨0, 0, 0, [0]⟩ "x\n".toList = .running := by
    intro f
    induction f with
    | zero => rfl
    | succ f ih => rw [apLine, h3]; exact ih
  rw [AssignmentData.parseMoolib, h1]
  simp only [h2]
  rw [apLines]
  simp only [show List.replicate (1 * 1 * 1) 0 = [0] from rfl, show trimStart "x\n".toList = "x\n".toList from rfl, h4]

/-- A file with more rows for an objective than there are tasks is not rejected: with one objective the tool panics, with more the rows
overwrite the costs of the next objective, or are overwritten. -/
theorem C79_violated_assignment_rows :
    AssignmentData.parseMoolib 9 "1\n1\n[[[1],[2]]]\n".toList = .panic ∧
    AssignmentData.parseMoolib 9 "2\n1\n[[[1],[2]],[[3]]]\n".toList = .done (some ⟨1, 2, [1, 3]⟩) := by
  constructor <;> cbv

end Problems
end RustSat
