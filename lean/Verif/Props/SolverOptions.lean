import Verif.Lemmas.SolverOptions
/-
C100: options and configurations of Kissat and CaDiCaL.
-/
namespace RustSat.SolverOptions

variable {t : List Opt}

/-- C100: an option is found by its name, by both libraries. -/
theorem C100_found (ht : Table t) (name : List Nat) (i : Nat) :
    (kissatHas t name = some i ↔ ∃ o, t[i]? = some o ∧ o.name = name) ∧
    (cadicalHas t name = some i ↔ ∃ o, t[i]? = some o ∧ o.name = name) :=
  ⟨ht.kissat_iff, ht.cadical_iff⟩

/-- C100: setting an option of CaDiCaL succeeds exactly if there is an option of this name; then the option has the value,
or the end of its range that is next to it, and all other options are as they were; otherwise nothing is changed. -/
theorem C100_cadical_set (ht : Table t) {vals : List Int} (h : CadicalVals t vals) (name : List Nat)
    (h0 : 0 ∉ name) (v : Int) :
    (∀ o ∈ t, o.name = name → (cadicalSetOption t vals name v).1 = .ok () ∧
      cadicalGetOption t (cadicalSetOption t vals name v).2 name = .ok (max o.low (min o.high v)) ∧
      ∀ n, 0 ∉ n → n ≠ name → cadicalGetOption t (cadicalSetOption t vals name v).2 n = cadicalGetOption t vals n) ∧
    (¬ Known t name → cadicalSetOption t vals name v = (.error .api, vals)) := by
  have hi := h.inRange ht
  obtain ⟨h1, h2⟩ := cadicalSet_eq ht vals name v
  have e : cadicalSetOption t vals name v =
      (if (cadicalSet t vals name v).1 then .ok () else .error .api, (kissatSet t vals name v).2) := by
    unfold cadicalSetOption
    rw [if_neg (by simpa using h0), ← h1]
  rw [e]
  refine ⟨fun o ho e => ?_, fun hn => ?_⟩
  · subst e
    refine ⟨by rw [h2.2 ⟨o, ho, rfl⟩]; rfl, ?_, fun n hn hne => ?_⟩
    · rw [cadicalGetOption_of ht h0, kissatGet_set ht hi ho, if_pos rfl]
    · rw [cadicalGetOption_of ht hn, cadicalGetOption_of ht hn, kissatGet_set ht hi ho, if_neg hne]
  · rw [(kissatSet_unknown ht vals hn v).1]
    cases e : (cadicalSet t vals name v).1 with
    | false => rfl
    | true => exact absurd (h2.1 e) hn

/-- C100: setting an option of Kissat has the same effect. (`_partial`: it succeeds if the option had a value other than 0
before, and not exactly if there is an option of this name, see `C100_violated_kissat_error`.) -/
theorem C100_kissat_set_partial (ht : Table t) {vals : List Int} (h : KissatVals t vals) (name : List Nat)
    (h0 : 0 ∉ name) (v : Int) :
    (∀ o ∈ t, o.name = name →
      (kissatGetOption t vals name ≠ .ok 0 → (kissatSetOption t vals name v).1 = .ok ()) ∧
      kissatGetOption t (kissatSetOption t vals name v).2 name = .ok (max o.low (min o.high v)) ∧
      ∀ n, 0 ∉ n → n ≠ name → kissatGetOption t (kissatSetOption t vals name v).2 n = kissatGetOption t vals n) ∧
    (¬ Known t name → kissatSetOption t vals name v = (.error .api, vals)) := by
  have hi := h.inRange ht
  have e : kissatSetOption t vals name v =
      (if kissatGet t vals name ≠ 0 then .ok () else .error .api, (kissatSet t vals name v).2) := by
    unfold kissatSetOption
    rw [if_neg (by simpa using h0), ← kissatSet_fst vals name v]
  rw [e]
  refine ⟨fun o ho e => ?_, fun hn => ?_⟩
  · subst e
    refine ⟨fun hz => ?_, ?_, fun n hn hne => ?_⟩
    · rw [kissatGetOption_of h0] at hz
      exact if_pos fun e => hz (by rw [e])
    · rw [kissatGetOption_of h0, kissatGet_set ht hi ho, if_pos rfl]
    · rw [kissatGetOption_of hn, kissatGetOption_of hn, kissatGet_set ht hi ho, if_neg hne]
  · obtain ⟨h1, h2⟩ := kissatSet_unknown ht vals hn v
    rw [h1, h2]
    rfl

/-- C100: names with a zero byte are refused, and nothing is changed. -/
theorem C100_nul (vals : List Int) (name : List Nat) (h0 : 0 ∈ name) (v : Int) :
    kissatSetOption t vals name v = (.error .nul, vals) ∧ cadicalSetOption t vals name v = (.error .nul, vals) ∧
    kissatGetOption t vals name = .error .nul ∧ cadicalGetOption t vals name = .error .nul := by
  have hc : name.contains 0 = true := by simpa using h0
  unfold kissatSetOption cadicalSetOption kissatGetOption cadicalGetOption
  simp [hc, h0]

/-- C100: every option of either solver is in its range, after any sequence of settings and configurations. -/
theorem C100_range (ht : Table t) {vals : List Int} {o : Opt} (ho : o ∈ t) (h0 : 0 ∉ o.name) :
    (KissatVals t vals → ∃ v, kissatGetOption t vals o.name = .ok v ∧ o.low ≤ v ∧ v ≤ o.high) ∧
    (CadicalVals t vals → ∃ v, cadicalGetOption t vals o.name = .ok v ∧ o.low ≤ v ∧ v ≤ o.high) := by
  have hc : o.name.contains 0 = false := by simpa using h0
  have key : InRange t vals → o.low ≤ kissatGet t vals o.name ∧ kissatGet t vals o.name ≤ o.high := by
    intro h
    obtain ⟨j, hj, rfl⟩ := List.mem_iff_getElem.1 ho
    have ej := ht.kissat_iff.2 ⟨_, List.getElem?_eq_getElem hj, rfl⟩
    unfold kissatGet
    rw [ej]
    exact h.get (List.getElem?_eq_getElem hj)
  refine ⟨fun h => ⟨_, ?_, key (h.inRange ht)⟩, fun h => ⟨_, ?_, key (h.inRange ht)⟩⟩
  · unfold kissatGetOption
    rw [hc]
    rfl
  · unfold cadicalGetOption
    rw [hc, ← cadicalGet_eq ht]
    rfl

/-- C100: configurations are refused after the first clause, and nothing is changed. -/
theorem C100_configuration_state (s : NState) (hs : s ≠ .configuring) (vals : List Int) (k : KissatConfig) (c : CadicalConfig) :
    kissatSetConfiguration t s vals k = (.error (.state .configuring s.toExternal), vals) ∧
    cadicalSetConfiguration t s vals c = (.error (.state .configuring s.toExternal), vals) := by
  unfold kissatSetConfiguration cadicalSetConfiguration
  simp [hs]

/-! ### The tables of the libraries -/

set_option maxRecDepth 20000 in
/-- The table of Kissat is as required. -/
theorem C100_kissat_table : Table kissatTable where
  nonempty := nofun
  sorted := sorted_of_isSorted (by decide)
  defaults := by decide
  off := by decide

set_option maxRecDepth 20000 in
/-- The table of CaDiCaL is as required. -/
theorem C100_cadical_table : Table cadicalTable where
  nonempty := nofun
  sorted := sorted_of_isSorted (by decide)
  defaults := by decide
  off := by decide

set_option maxRecDepth 20000 in
/-- C100: a configuration of Kissat sets exactly the options that it is said to set. -/
theorem C100_kissat_configuration {vals : List Int} (h : KissatVals kissatTable vals) (c : KissatConfig) (n : List Nat)
    (h0 : 0 ∉ n) :
    (kissatSetConfiguration kissatTable .configuring vals c).1 = .ok () ∧
    (∀ v, (n, v) ∈ c.sets →
      kissatGetOption kissatTable (kissatSetConfiguration kissatTable .configuring vals c).2 n = .ok v) ∧
    (n ∉ c.sets.map Prod.fst →
      kissatGetOption kissatTable (kissatSetConfiguration kissatTable .configuring vals c).2 n =
        kissatGetOption kissatTable vals n) := by
  have hf : fits kissatTable c.sets = true ∧ (c.sets.map Prod.fst).Nodup := by
    cases c <;> exact ⟨by decide, by decide⟩
  obtain ⟨h1, h2⟩ := kissatSetAll_get C100_kissat_table n c.sets (h.inRange C100_kissat_table) (of_fits hf.1) hf.2
  refine ⟨rfl, fun v hv => ?_, fun hn => ?_⟩
  · rw [kissatGetOption_of h0]
    exact congrArg _ (h1 v hv)
  · rw [kissatGetOption_of h0, kissatGetOption_of h0]
    exact congrArg _ (h2 hn)

/-- C100: the configuration `Default` of CaDiCaL resets the options, except for those about messages and internal checks, and
`Plain` switches off the options of preprocessing, and nothing else is changed. -/
theorem C100_cadical_default {vals : List Int} (h : CadicalVals cadicalTable vals) {o : Opt} (ho : o ∈ cadicalTable)
    (h0 : 0 ∉ o.name) :
    cadicalGetOption cadicalTable (cadicalSetConfiguration cadicalTable .configuring vals .default).2 o.name =
      (if o.resets then .ok o.default else cadicalGetOption cadicalTable vals o.name) ∧
    cadicalGetOption cadicalTable (cadicalSetConfiguration cadicalTable .configuring vals .plain).2 o.name =
      (if o.preprocessing then .ok 0 else cadicalGetOption cadicalTable vals o.name) := by
  have ht := C100_cadical_table
  have hi := h.inRange ht
  constructor
  · rw [cadicalGetOption_of ht h0, cadicalGetOption_of ht h0]
    refine (congrArg Except.ok (kissatGet_zip ht hi _ ho)).trans ?_
    split <;> rfl
  · rw [cadicalGetOption_of ht h0, cadicalGetOption_of ht h0]
    refine (congrArg Except.ok (kissatGet_zip ht hi _ ho)).trans ?_
    split <;> rfl

set_option maxRecDepth 20000 in
/-- C100: the configurations `Sat` and `Unsat` of CaDiCaL set exactly these options. -/
theorem C100_cadical_configuration {vals : List Int} (h : CadicalVals cadicalTable vals) (n : List Nat) (h0 : 0 ∉ n) :
    cadicalGetOption cadicalTable (cadicalSetConfiguration cadicalTable .configuring vals .sat).2 n =
      (if n = bytes "elimeffort" then .ok 10 else if n = bytes "stabilizeonly" then .ok 1
        else if n = bytes "subsumeeffort" then .ok 60 else cadicalGetOption cadicalTable vals n) ∧
    cadicalGetOption cadicalTable (cadicalSetConfiguration cadicalTable .configuring vals .unsat).2 n =
      (if n = bytes "stabilize" then .ok 0 else if n = bytes "walk" then .ok 0
        else cadicalGetOption cadicalTable vals n) := by
  have ht := C100_cadical_table
  have hi := h.inRange ht
  constructor
  · rw [cadicalGetOption_of ht h0, cadicalGetOption_of ht h0]
    obtain ⟨h1, h2⟩ := kissatSetAll_get ht n
      [(bytes "elimeffort", 10), (bytes "stabilizeonly", 1), (bytes "subsumeeffort", 60)] hi (of_fits (by decide)) (by decide)
    have hc : (cadicalSetConfiguration cadicalTable .configuring vals .sat).2 = kissatSetAll cadicalTable vals
        [(bytes "elimeffort", 10), (bytes "stabilizeonly", 1), (bytes "subsumeeffort", 60)] := cadicalSetAll_eq ht _ vals
    rw [hc]
    by_cases e1 : n = bytes "elimeffort"
    · rw [if_pos e1, h1 10 (by simp [e1])]
    rw [if_neg e1]
    by_cases e2 : n = bytes "stabilizeonly"
    · rw [if_pos e2, h1 1 (by simp [e2])]
    rw [if_neg e2]
    by_cases e3 : n = bytes "subsumeeffort"
    · rw [if_pos e3, h1 60 (by simp [e3])]
    rw [if_neg e3, h2 (by simp [e1, e2, e3])]
  · rw [cadicalGetOption_of ht h0, cadicalGetOption_of ht h0]
    obtain ⟨h1, h2⟩ := kissatSetAll_get ht n
      [(bytes "stabilize", 0), (bytes "walk", 0)] hi (of_fits (by decide)) (by decide)
    have hc : (cadicalSetConfiguration cadicalTable .configuring vals .unsat).2 = kissatSetAll cadicalTable vals
        [(bytes "stabilize", 0), (bytes "walk", 0)] := cadicalSetAll_eq ht _ vals
    rw [hc]
    by_cases e1 : n = bytes "stabilize"
    · rw [if_pos e1, h1 0 (by simp [e1])]
    rw [if_neg e1]
    by_cases e2 : n = bytes "walk"
    · rw [if_pos e2, h1 0 (by simp [e2])]
    rw [if_neg e2, h2 (by simp [e1, e2])]

/-! ### Violations -/

/-- C100 is violated: setting any option of Kissat whose value is 0 returns an error, although the option is set. The library
returns the former value of the option, and the wrapper takes it for a success flag. -/
theorem C100_violated_kissat_error (ht : Table t) {vals : List Int} (h : KissatVals t vals) {o : Opt} (ho : o ∈ t)
    (h0 : 0 ∉ o.name) (hz : kissatGetOption t vals o.name = .ok 0) {v : Int} (hv : o.low ≤ v ∧ v ≤ o.high) :
    (kissatSetOption t vals o.name v).1 = .error .api ∧
    kissatGetOption t (kissatSetOption t vals o.name v).2 o.name = .ok v := by
  rw [kissatGetOption_of h0] at hz
  injection hz with hz
  constructor
  · unfold kissatSetOption
    rw [if_neg (by simpa using h0)]
    simp only [kissatSet_fst, hz]
    rfl
  · rw [((C100_kissat_set_partial ht h o.name h0 v).1 o ho rfl).2.1]
    congr 1
    omega

set_option maxRecDepth 20000 in
/-- For example the seed of the random numbers. -/
theorem C100_violated_kissat_seed :
    (kissatSetOption kissatTable (initial kissatTable) (bytes "seed") 42).1 = .error .api ∧
    kissatGetOption kissatTable (kissatSetOption kissatTable (initial kissatTable) (bytes "seed") 42).2 (bytes "seed") = .ok 42 :=
  C100_violated_kissat_error C100_kissat_table .new
    (o := ⟨bytes "seed", 0, 0, 2147483647, false, true⟩) (by decide) (by decide) (by rfl) (by decide)

set_option maxRecDepth 20000 in
/-- C100 is violated: Kissat accepts a value out of the range of the option, and replaces it by another one
(which the documentation of CaDiCaL's wrapper says, and that of Kissat's wrapper denies). -/
theorem C100_violated_range :
    (kissatSetOption kissatTable (initial kissatTable) (bytes "restartint") 1000000).1 = .ok () ∧
    kissatGetOption kissatTable (kissatSetOption kissatTable (initial kissatTable) (bytes "restartint") 1000000).2
      (bytes "restartint") = .ok 10000 := by
  refine ⟨?_, ?_⟩ <;> rfl

/-- C100 is violated: reading an option that does not exist is no error. -/
theorem C100_violated_unknown (ht : Table t) (vals : List Int) {n : List Nat} (hn : ¬ Known t n) (h0 : 0 ∉ n) :
    kissatGetOption t vals n = .ok 0 ∧ cadicalGetOption t vals n = .ok 0 := by
  rw [kissatGetOption_of h0, cadicalGetOption_of ht h0, (kissatSet_unknown ht vals hn 0).2]
  exact ⟨rfl, rfl⟩

set_option maxRecDepth 20000 in
/-- C100 is violated: Kissat's configuration `Default` does not set the default options. -/
theorem C100_violated_kissat_default :
    let vals := (kissatSetConfiguration kissatTable .configuring (initial kissatTable) .sat).2
    (kissatSetConfiguration kissatTable .configuring vals .default) = (.ok (), vals) ∧
    kissatGetOption kissatTable (initial kissatTable) (bytes "target") = .ok 1 ∧
    kissatGetOption kissatTable vals (bytes "target") = .ok 2 := by
  refine ⟨?_, ?_, ?_⟩ <;> rfl

/-! ### Examples -/

set_option maxRecDepth 20000 in
example : ¬ Known kissatTable (bytes "sseed") := by
  rw [C100_kissat_table.known]
  rintro ⟨i, e⟩
  have : kissatHas kissatTable (bytes "sseed") = none := by rfl
  rw [this] at e
  cases e

set_option maxRecDepth 20000 in
example : (cadicalSetOption cadicalTable (initial cadicalTable) (bytes "walk") 0).1 = .ok () ∧
    (cadicalSetOption cadicalTable (initial cadicalTable) (bytes "wallk") 0).1 = .error .api ∧
    cadicalGetOption cadicalTable (cadicalSetConfiguration cadicalTable .configuring
      (cadicalSetOption cadicalTable (initial cadicalTable) (bytes "walk") 0).2 .default).2 (bytes "walk") = .ok 1 := by
  refine ⟨?_, ?_, ?_⟩ <;> rfl

example : CadicalVals cadicalTable (initial cadicalTable) := .new (.initial C100_cadical_table)

end RustSat.SolverOptions
