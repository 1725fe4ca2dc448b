import Verif.Lemmas.ClusteringInput
import Verif.Lemmas.F64
import Verif.Props.Clustering
/-
C93: the text input of the clustering tool.
-/
namespace RustSat
namespace Clustering
open Dimacs DimacsSpec

variable {VM : Type} [ManageVars VM] [LawfulVM VM]

/-- **C93.** A line of the input gives an entry exactly if it is of the form `[nodeA] [nodeB] [similarity value]` after white
space, and then it gives this entry. -/
theorem C93_line (l x y : Text) (v : NumberParts) : processLine l = some (x, y, v) ↔ EntryLine x y v l :=
  ⟨processLine_sound, processLine_complete⟩

/-- Non-vacuity: lines with and without entry. -/
example : processLine "  n_1 8162774324609023\t-.5e-2".toList = some ("n_1".toList, "8162774324609023".toList, .num true [] ['5'] (-2)) ∧
    processLine "a b +Inf".toList = some (['a'], ['b'], .inf false) ∧ processLine " % a b 1".toList = none ∧
    processLine "a b 1e".toList = none := by decide

/-- **C93.** The entries of a file with lines of this form, comments and blank lines are those of its lines, in their order,
for all ways to end lines. -/
theorem C93_file {es : List (Text × Text × NumberParts)} {L : List Text} {t : Text} (h : FileLines es L) (ht : FileText L t) (a : SimArgs) :
    readInput a t = es.map fun e => (e.1, e.2.1, a.sim e.2.2.toF64) := by
  unfold readInput
  rw [ht.lines h.newline, h.entries]

/-- The similarities of the entries fit machine integers. -/
def SimsFit (a : SimArgs) (es : List (Text × Text × NumberParts)) : Prop :=
  ∀ e ∈ es, -2 ^ 63 ≤ scalingMap e.2.2.toF64 a.multiplier - a.offset ∧ scalingMap e.2.2.toF64 a.multiplier - a.offset < 2 ^ 63

/-- The input of the encoding for the entries of a file. -/
def inputOf (a : SimArgs) (es : List (Text × Text × NumberParts)) : List (Text × Text × Sim) :=
  es.map fun e => (e.1, e.2.1, a.sim e.2.2.toF64)

theorem inputOf_fit {a : SimArgs} {es : List (Text × Text × NumberParts)} (h : SimsFit a es) : WeightsFit (inputOf a es) := by
  intro e he w hw
  obtain ⟨e', he', rfl⟩ := List.mem_map.1 he
  obtain ⟨h1, h2⟩ := h e' he'
  simp only [SimArgs.sim] at hw
  generalize scalingMap e'.2.2.toF64 a.multiplier - a.offset = s at *
  have hb : s.natAbs ≤ usizeMax := by
    have : (usizeMax : ℤ) = 2 ^ 64 - 1 := by decide
    omega
  unfold saturatingMap at hw
  by_cases c1 : s.natAbs < a.dontCare
  · rw [if_pos c1] at hw; rcases hw with hw | hw <;> cases hw
  rw [if_neg c1] at hw
  by_cases c2 : s.natAbs > a.hardThreshold
  · rw [if_pos c2] at hw
    by_cases c3 : s > 0
    · rw [if_pos c3] at hw; rcases hw with hw | hw <;> cases hw
    · rw [if_neg c3] at hw; rcases hw with hw | hw <;> cases hw
  rw [if_neg c2] at hw
  by_cases c3 : s > 0
  · rw [if_pos c3] at hw
    rcases hw with hw | hw <;> cases hw
    exact hb
  · rw [if_neg c3] at hw
    rcases hw with hw | hw <;> cases hw
    exact hb

/-- **C93** (part: at least two nodes). From the text of a file to the text of an instance: its solutions are the clusterings of
the nodes of the file, with their costs. -/
theorem C93_tool_partial (dflt : VM) {es : List (Text × Text × NumberParts)} {L : List Text} {t : Text} (h : FileLines es L) (ht : FileText L t)
    (a : SimArgs) (hf : SimsFit a es) {nodes : List Text} (hn : nodes.Nodup) (hocc : ∀ x, x ∈ nodes ↔ ∃ e ∈ es, e.1 = x ∨ e.2.1 = x)
    (h2 : 2 ≤ nodes.length) (hb : SizeFits nodes.length) (inner : Bool) :
    ∃ fuel out i, clusteringTextTool ⟨false, inner⟩ a t fuel = .done out ∧ MultiOptInstance.fromDimacs dflt out = .ok i ∧
      (∀ asg, i.constrs.sat asg → ∃ cluster, IsClustering (inputOf a es) cluster ∧
        ∀ k, objValue i.objs k asg = clusterCost (inputOf a es) nodes k cluster) ∧
      ∀ cluster, IsClustering (inputOf a es) cluster → ∃ asg, i.constrs.sat asg ∧
        ∀ k, objValue i.objs k asg = clusterCost (inputOf a es) nodes k cluster := by
  unfold clusteringTextTool
  rw [C93_file h ht a]
  refine C77_clustering_partial dflt hn (fun x => (hocc x).trans ?_) h2 (inputOf_fit hf) hb inner
  unfold Occurs
  constructor
  · rintro ⟨e, he, hx⟩
    exact ⟨_, List.mem_map.2 ⟨e, he, rfl⟩, hx⟩
  · rintro ⟨e, he, hx⟩
    obtain ⟨e', he', rfl⟩ := List.mem_map.1 he
    exact ⟨e', he', hx⟩

/-- Non-vacuity: a file of two entries with a comment and different ends of lines. -/
example : ∃ L, FileLines [(['a'], ['b'], .num false ['0'] ['7', '5'] 0), (['b'], ['c'], .num true [] ['5'] 0)] L ∧
    FileText L "a b 0.75\n % x\r\nb c -.5".toList := by
  refine ⟨["a b 0.75".toList, " % x".toList, "b c -.5".toList], ?_, ?_⟩
  · refine .entry _ _ _ _ _ _ ((C93_line _ _ _ _).1 (by decide)) (by decide) (.skip _ _ _ (Or.inr ⟨[' '], [' ', 'x'], rfl, by decide⟩) (by decide)
      (.entry _ _ _ _ _ _ ((C93_line _ _ _ _).1 (by decide)) (by decide) .nil))
  · refine .lf "a b 0.75".toList _ _ (fun r h => ?_) (.crlf " % x".toList _ _ (.last _ (by decide)))
    have := congrArg List.reverse h
    rw [List.reverse_append] at this
    revert this
    simp

/-! ### Similarity values -/

theorem exact_round {v : NumberParts} {q : ℚ} (h : v.exact = some q) : v.toF64 = F64.round q := by
  cases v with
  | num n i f x =>
    simp only [NumberParts.exact, Option.some.injEq] at h
    subst h
    unfold NumberParts.toF64
    cases n <;> simp
  | nan => cases h
  | inf => cases h

/-- **C93** (part: up to one unit, and for products up to `2^50`). The similarity in fixed point is the value in the text times the multiplier,
truncated, up to one unit. -/
theorem C93_scaling_partial {v : NumberParts} {q : ℚ} (h : v.exact = some q) {m : ℕ} (hm : m < 2 ^ 32) (hq : |q * m| ≤ 2 ^ 50) :
    |scalingMap v.toF64 m - truncQ (q * m)| ≤ 1 := by
  rw [exact_round h]
  exact scaling_near hm hq

/-- **C93.** It is exact for values with few binary places. -/
theorem C93_scaling_exact {v : NumberParts} {k : ℤ} {j m : ℕ} (h : v.exact = some ((k : ℚ) / 2 ^ j)) (hk : |k * m| < 2 ^ 53) (hk' : |k| < 2 ^ 53)
    (hj : j ≤ 1074) : scalingMap v.toF64 m = truncQ (k / 2 ^ j * m) := by
  have e := scaling_exact hk hk' hj
  rw [exact_round h, e]

/-- **C93.** Higher values in the text are never mapped to lower similarities. -/
theorem C93_monotone {v v' : NumberParts} {q q' : ℚ} (h : v.exact = some q) (h' : v'.exact = some q') (hq : q ≤ q') (m : ℕ) :
    scalingMap v.toF64 m ≤ scalingMap v'.toF64 m := by
  rw [exact_round h, exact_round h']
  exact scaling_mono hq m

/-- **C93.** Infinite values become the highest and the lowest number, so that no other value is above or below them. -/
theorem C93_infinity {m : ℕ} (hm : 0 < m) :
    scalingMap (NumberParts.inf false).toF64 m = 2 ^ 63 - 1 ∧ scalingMap (NumberParts.inf true).toF64 m = -2 ^ 63 ∧
    ∀ v : NumberParts, scalingMap (NumberParts.inf true).toF64 m ≤ scalingMap v.toF64 m ∧
      scalingMap v.toF64 m ≤ scalingMap (NumberParts.inf false).toF64 m := by
  have h : ∀ b, (NumberParts.inf b).toF64 = .inf b := fun b => by unfold NumberParts.toF64; rfl
  have h1 : scalingMap (NumberParts.inf false).toF64 m = 2 ^ 63 - 1 := by
    rw [h]; unfold scalingMap F64.mulNat; dsimp only; rw [if_neg hm.ne']; rfl
  have h2 : scalingMap (NumberParts.inf true).toF64 m = -2 ^ 63 := by
    rw [h]; unfold scalingMap F64.mulNat; dsimp only; rw [if_neg hm.ne']; rfl
  refine ⟨h1, h2, fun v => ?_⟩
  rw [h1, h2]
  unfold scalingMap
  cases (v.toF64.mulNat m) with
  | nan => exact ⟨by norm_num [F64.toIsize], by norm_num [F64.toIsize]⟩
  | inf b => cases b <;> exact ⟨by norm_num [F64.toIsize], by norm_num [F64.toIsize]⟩
  | fin q =>
    unfold F64.toIsize
    dsimp only
    exact ⟨le_max_left _ _, max_le (by norm_num) (min_le_left _ _)⟩

example : processLine "a b -Infinity".toList = some (['a'], ['b'], .inf true) ∧
    scalingMap (NumberParts.inf true).toF64 1000 = -2 ^ 63 := ⟨by decide, (C93_infinity (by norm_num)).2.1⟩

/-- Non-vacuity: `0.75` with the default multiplier is 750, and `-1e3` is below `0.75`. -/
example : scalingMap (NumberParts.num false ['0'] ['7', '5'] 0).toF64 1000 = 750 ∧ (NumberParts.num true ['1'] [] 3).exact = some (-1000) := by
  constructor
  · rw [C93_scaling_exact (k := 3) (j := 2) (by unfold NumberParts.exact; simp only; rw [show Text.readNat (['0'] ++ ['7', '5']) = 75 from by decide]; norm_num) (by norm_num) (by norm_num) (by norm_num)]
    unfold truncQ
    norm_num
  · unfold NumberParts.exact; simp only; rw [show Text.readNat (['1'] ++ []) = 1 from by decide]; norm_num

/-- Non-vacuity of `SimsFit`. -/
example : SimsFit SimArgs.default [(['a'], ['b'], .num false ['0'] ['7', '5'] 0)] := by
  intro e he
  rw [List.mem_singleton] at he
  subst he
  have := C93_scaling_exact (v := .num false ['0'] ['7', '5'] 0) (k := 3) (j := 2) (m := 1000) (by
    unfold NumberParts.exact; simp only; rw [show Text.readNat (['0'] ++ ['7', '5']) = 75 from by decide]; norm_num)
    (by norm_num) (by norm_num) (by norm_num)
  simp only [SimArgs.default]
  rw [this]
  unfold truncQ
  norm_num

/-- **C93** (violation): with multiplier 100, the value `0.29` becomes 28, since the product is truncated and not rounded. -/
theorem C93_violated_truncation : scalingMap (NumberParts.num false ['0'] ['2', '9'] 0).toF64 100 = 28 ∧
    truncQ (29 / 100 * 100) = 29 := by
  constructor
  · have h : (NumberParts.num false ['0'] ['2', '9'] 0).exact = some (29 / 100) := by
      unfold NumberParts.exact; simp only; rw [show Text.readNat (['0'] ++ ['2', '9']) = 29 from by decide]; norm_num
    have e1 : roundBits (29 / 100) = (5224175567749775 : ℤ) * 2 ^ (-54 : ℤ) :=
      roundBits_eval (by norm_num [abs_of_pos]) (by norm_num [abs_of_pos]) (by norm_num) (by norm_num [abs_lt])
    have e2 : roundBits ((5224175567749775 : ℤ) * 2 ^ (-54 : ℤ) * (100 : ℕ)) = (8162774324609023 : ℤ) * 2 ^ (-48 : ℤ) :=
      roundBits_eval (by norm_num [abs_of_pos]) (by norm_num [abs_of_pos]) (by norm_num) (by norm_num [abs_lt])
    rw [exact_round h]
    unfold scalingMap
    rw [round_fin (by rw [e1]; norm_num [abs_lt]), e1, mulNat_fin, round_fin (by rw [e2]; norm_num [abs_lt]), e2]
    unfold F64.toIsize truncQ
    norm_num
  · unfold truncQ; norm_num

/-! ### Violations -/

/-- **C93** (violation): lines that do not have the form of the documentation are left out without an error, here one with a space
at its end and one with a hyphen in a name. -/
theorem C93_violated_dropped (a : SimArgs) :
    readInput a "a b 1 \nb c-d 1\n".toList = [] ∧ (readInput a "a b 1\nb cd 1\n".toList).length = 2 := by
  constructor
  · have : (Text.lines "a b 1 \nb c-d 1\n".toList).filterMap processLine = [] := by decide
    unfold readInput
    rw [this]; rfl
  · have : ((Text.lines "a b 1\nb cd 1\n".toList).filterMap processLine).length = 2 := by decide
    unfold readInput
    rw [List.length_map, this]

/-- **C93** (violation): the value `nan` is a number of the format, and with the default arguments it forbids to put both nodes in
one cluster. -/
theorem C93_violated_nan : readInput SimArgs.default "a b NaN".toList = [(['a'], ['b'], .cannotLink)] := by
  have : (Text.lines "a b NaN".toList).filterMap processLine = [(['a'], ['b'], .nan)] := by decide
  unfold readInput
  rw [this]
  rfl

end Clustering
end RustSat
