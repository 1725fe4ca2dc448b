import Verif.Model.Bindings
/-
Model of the options of Kissat and CaDiCaL (kissat/src/lib.rs l.193-251, cadical/src/lib.rs l.315-389) with the tables of
options in the libraries (kissat/vendor/src/options.c, options.h, config.c; cadical/vendor/src/options.cpp, options.hpp,
config.cpp).

Names are lists of bytes. That CaDiCaL may be given options only right after its creation is part of C99, and left out here.
-/
namespace RustSat.SolverOptions

/-- `strcmp` of the C library, for bytes from 0 to 255 without terminating zero. -/
def strcmp : List Nat → List Nat → Ordering
  | [], [] => .eq
  | [], _ :: _ => .lt
  | _ :: _, [] => .gt
  | a :: as, b :: bs => if a < b then .lt else if b < a then .gt else strcmp as bs

/-- The bytes of a name, which has only ASCII characters. -/
def bytes (s : String) : List Nat := s.toList.map Char.toNat

/-- `opt` (kissat/vendor/src/options.h l.224-234) and `Option` (cadical/vendor/src/options.hpp l.312-323): a name, the default,
the range; and whether CaDiCaL's configuration `plain` switches it off, and `default` resets it. -/
structure Opt where
  name : List Nat := []
  default : Int := 0
  low : Int := 0
  high : Int := 0
  preprocessing : Bool := false
  resets : Bool := true
deriving DecidableEq, Inhabited

/-- An entry of a table. -/
def nth (t : List Opt) (i : Nat) : Opt := t.getD i {}

/-- The loop of `kissat_options_has` (kissat/vendor/src/options.c l.43-62). `fuel` bounds the number of iterations. -/
def kissatLoop (t : List Opt) (name : List Nat) : Nat → Nat → Nat → Option Nat
  | 0, l, _ => if strcmp (nth t l).name name = .eq then some l else none
  | fuel + 1, l, r =>
    if l + 1 < r then
      match strcmp name (nth t (l + (r - l) / 2)).name with
      | .lt => kissatLoop t name fuel l (l + (r - l) / 2)
      | .gt => kissatLoop t name fuel (l + (r - l) / 2) r
      | .eq => some (l + (r - l) / 2)
    else if strcmp (nth t l).name name = .eq then some l else none

/-- `kissat_options_has` (kissat/vendor/src/options.c l.43-62): the position in the table. -/
def kissatHas (t : List Opt) (name : List Nat) : Option Nat := kissatLoop t name t.length 0 t.length

/-- The loop of `Options::has` (cadical/vendor/src/options.cpp l.38-52). `fuel` bounds the number of iterations. -/
def cadicalLoop (t : List Opt) (name : List Nat) : Nat → Nat → Nat → Option Nat
  | 0, _, _ => none
  | fuel + 1, l, r =>
    if l < r then
      match strcmp name (nth t (l + (r - l) / 2)).name with
      | .eq => some (l + (r - l) / 2)
      | .lt => cadicalLoop t name fuel l (l + (r - l) / 2)
      | .gt => cadicalLoop t name fuel (l + (r - l) / 2 + 1) r
    else none

/-- `Options::has` (cadical/vendor/src/options.cpp l.38-52). -/
def cadicalHas (t : List Opt) (name : List Nat) : Option Nat := cadicalLoop t name t.length 0 t.length

/-- The value that an option gets (kissat/vendor/src/options.c l.237-250, cadical/vendor/src/options.cpp l.155-175). -/
def Opt.fit (o : Opt) (old new : Int) : Int :=
  if new = old then old
  else
    let v := if new < o.low then o.low else new
    if v > o.high then o.high else v

/-- `kissat_options_set` (kissat/vendor/src/options.c l.237-257), with the former value as result. -/
def kissatSet (t : List Opt) (vals : List Int) (name : List Nat) (v : Int) : Int × List Int :=
  match kissatHas t name with
  | none => (0, vals)
  | some i => (vals.getD i 0, vals.set i ((nth t i).fit (vals.getD i 0) v))

/-- `kissat_options_get` (kissat/vendor/src/options.c l.231-235). -/
def kissatGet (t : List Opt) (vals : List Int) (name : List Nat) : Int :=
  match kissatHas t name with
  | none => 0
  | some i => vals.getD i 0

/-- `Options::set` (cadical/vendor/src/options.cpp l.179-185). -/
def cadicalSet (t : List Opt) (vals : List Int) (name : List Nat) (v : Int) : Bool × List Int :=
  match cadicalHas t name with
  | none => (false, vals)
  | some i => (true, vals.set i ((nth t i).fit (vals.getD i 0) v))

/-- `Options::get` (cadical/vendor/src/options.cpp l.187-190). -/
def cadicalGet (t : List Opt) (vals : List Int) (name : List Nat) : Int :=
  match cadicalHas t name with
  | none => 0
  | some i => vals.getD i 0

/-- The values after `kissat_init_options` (kissat/vendor/src/options.c l.259-269), or the constructor of `Options`
(cadical/vendor/src/options.cpp l.104-148) if no variables of the environment are set. -/
def initial (t : List Opt) : List Int := t.map Opt.default

/-- Errors: the name has a zero byte (`CString::new`), `InvalidApiReturn`, or `StateError`. -/
inductive OptErr where
  | nul
  | api
  | state (required actual : SolverState)
deriving DecidableEq, Repr

/-- `Kissat::set_option` (kissat/src/lib.rs l.229-240). -/
def kissatSetOption (t : List Opt) (vals : List Int) (name : List Nat) (v : Int) : Except OptErr Unit × List Int :=
  if name.contains 0 then (.error .nul, vals)
  else
    let r := kissatSet t vals name v
    (if r.1 ≠ 0 then .ok () else .error .api, r.2)

/-- `Kissat::get_option` (kissat/src/lib.rs l.248-251). -/
def kissatGetOption (t : List Opt) (vals : List Int) (name : List Nat) : Except OptErr Int :=
  if name.contains 0 then .error .nul else .ok (kissatGet t vals name)

/-- `CaDiCaL::set_option` (cadical/src/lib.rs l.358-369). -/
def cadicalSetOption (t : List Opt) (vals : List Int) (name : List Nat) (v : Int) : Except OptErr Unit × List Int :=
  if name.contains 0 then (.error .nul, vals)
  else
    let r := cadicalSet t vals name v
    (if r.1 then .ok () else .error .api, r.2)

/-- `CaDiCaL::get_option` (cadical/src/lib.rs l.382-385). -/
def cadicalGetOption (t : List Opt) (vals : List Int) (name : List Nat) : Except OptErr Int :=
  if name.contains 0 then .error .nul else .ok (cadicalGet t vals name)

/-- `Config` (kissat/src/lib.rs l.488-500). -/
inductive KissatConfig where
  | default
  | basic
  | plain
  | sat
  | unsat
deriving DecidableEq, Repr

/-- `set_plain_options` (kissat/vendor/src/config.c l.40-54). -/
def kissatPlain : List (List Nat × Int) :=
  [(bytes "bumpreasons", 0), (bytes "chrono", 0), (bytes "compact", 0), (bytes "eagersubsume", 0), (bytes "jumpreasons", 0),
   (bytes "otfs", 0), (bytes "preprocess", 0), (bytes "reorder", 0), (bytes "rephase", 0), (bytes "restartreusetrail", 0),
   (bytes "simplify", 0), (bytes "stable", 2), (bytes "tumble", 0)]

/-- The options that a configuration sets (`kissat_set_configuration`, kissat/vendor/src/config.c l.56-82). -/
def KissatConfig.sets : KissatConfig → List (List Nat × Int)
  | .default => []
  | .basic => kissatPlain ++ [(bytes "restart", 0), (bytes "reduce", 0), (bytes "minimize", 0)]
  | .plain => kissatPlain
  | .sat => [(bytes "target", 2), (bytes "restartint", 50)]
  | .unsat => [(bytes "stable", 0)]

/-- A sequence of calls of `kissat_set_option`. -/
def kissatSetAll (t : List Opt) (vals : List Int) (s : List (List Nat × Int)) : List Int :=
  s.foldl (fun vals x => (kissatSet t vals x.1 x.2).2) vals

/-- `Kissat::set_configuration` (kissat/src/lib.rs l.201-220). -/
def kissatSetConfiguration (t : List Opt) (s : NState) (vals : List Int) (c : KissatConfig) :
    Except OptErr Unit × List Int :=
  if s ≠ .configuring then (.error (.state .configuring s.toExternal), vals) else (.ok (), kissatSetAll t vals c.sets)

/-- `Config` (cadical/src/lib.rs l.1214-1224). -/
inductive CadicalConfig where
  | default
  | plain
  | sat
  | unsat
deriving DecidableEq, Repr

/-- `Options::reset_default_values` (cadical/vendor/src/options.cpp l.322-337). -/
def resetDefaults (t : List Opt) (vals : List Int) : List Int :=
  List.zipWith (fun o v => if o.resets then o.default else v) t vals

/-- `Options::disable_preprocessing` (cadical/vendor/src/options.cpp l.293-310). -/
def disablePreprocessing (t : List Opt) (vals : List Int) : List Int :=
  List.zipWith (fun o v => if o.preprocessing then 0 else v) t vals

/-- A sequence of calls of `Options::set`. -/
def cadicalSetAll (t : List Opt) (vals : List Int) (s : List (List Nat × Int)) : List Int :=
  s.foldl (fun vals x => (cadicalSet t vals x.1 x.2).2) vals

/-- `Config::set` (cadical/vendor/src/config.cpp l.62-86). -/
def CadicalConfig.apply (t : List Opt) (vals : List Int) : CadicalConfig → List Int
  | .default => resetDefaults t vals
  | .plain => disablePreprocessing t vals
  | .sat => cadicalSetAll t vals [(bytes "elimeffort", 10), (bytes "stabilizeonly", 1), (bytes "subsumeeffort", 60)]
  | .unsat => cadicalSetAll t vals [(bytes "stabilize", 0), (bytes "walk", 0)]

/-- `CaDiCaL::set_configuration` (cadical/src/lib.rs l.322-343). -/
def cadicalSetConfiguration (t : List Opt) (s : NState) (vals : List Int) (c : CadicalConfig) :
    Except OptErr Unit × List Int :=
  if s = .configuring then (.ok (), c.apply t vals) else (.error (.state .configuring s.toExternal), vals)

/-- The options of Kissat (kissat/vendor/src/options.h l.9-170) in a release build without the features for logging and
quiet operation. -/
def kissatTable : List Opt :=
  [⟨bytes "ands", 1, 0, 1, false, true⟩,
   ⟨bytes "backbone", 1, 0, 2, false, true⟩,
   ⟨bytes "backboneeffort", 20, 0, 100000, false, true⟩,
   ⟨bytes "backbonemaxrounds", 1000, 1, 2147483647, false, true⟩,
   ⟨bytes "backbonerounds", 100, 1, 2147483647, false, true⟩,
   ⟨bytes "bigbigfraction", 990, 0, 1000, false, true⟩,
   ⟨bytes "bump", 1, 0, 1, false, true⟩,
   ⟨bytes "bumpreasons", 1, 0, 1, false, true⟩,
   ⟨bytes "bumpreasonslimit", 10, 1, 2147483647, false, true⟩,
   ⟨bytes "bumpreasonsrate", 10, 1, 2147483647, false, true⟩,
   ⟨bytes "chrono", 1, 0, 1, false, true⟩,
   ⟨bytes "chronolevels", 100, 0, 2147483647, false, true⟩,
   ⟨bytes "compact", 1, 0, 1, false, true⟩,
   ⟨bytes "compactlim", 10, 0, 100, false, true⟩,
   ⟨bytes "congruence", 1, 0, 1, false, true⟩,
   ⟨bytes "congruenceandarity", 1000000, 2, 50000000, false, true⟩,
   ⟨bytes "congruenceands", 1, 0, 1, false, true⟩,
   ⟨bytes "congruencebinaries", 1, 0, 1, false, true⟩,
   ⟨bytes "congruenceites", 1, 0, 1, false, true⟩,
   ⟨bytes "congruenceonce", 0, 0, 1, false, true⟩,
   ⟨bytes "congruencexorarity", 4, 2, 20, false, true⟩,
   ⟨bytes "congruencexorcounts", 2, 1, 2147483647, false, true⟩,
   ⟨bytes "congruencexors", 1, 0, 1, false, true⟩,
   ⟨bytes "decay", 50, 1, 200, false, true⟩,
   ⟨bytes "definitioncores", 2, 1, 100, false, true⟩,
   ⟨bytes "definitions", 1, 0, 1, false, true⟩,
   ⟨bytes "definitionticks", 1000000, 0, 2147483647, false, true⟩,
   ⟨bytes "defraglim", 75, 50, 100, false, true⟩,
   ⟨bytes "defragsize", 262144, 10, 2147483647, false, true⟩,
   ⟨bytes "eagersubsume", 4, 0, 4, false, true⟩,
   ⟨bytes "eliminate", 1, 0, 1, false, true⟩,
   ⟨bytes "eliminatebound", 16, 0, 8192, false, true⟩,
   ⟨bytes "eliminateclslim", 100, 1, 2147483647, false, true⟩,
   ⟨bytes "eliminateeffort", 100, 0, 2000, false, true⟩,
   ⟨bytes "eliminateinit", 500, 0, 2147483647, false, true⟩,
   ⟨bytes "eliminateint", 500, 10, 2147483647, false, true⟩,
   ⟨bytes "eliminateocclim", 2000, 0, 2147483647, false, true⟩,
   ⟨bytes "eliminaterounds", 2, 1, 10000, false, true⟩,
   ⟨bytes "emafast", 33, 10, 1000000, false, true⟩,
   ⟨bytes "emaslow", 100000, 100, 1000000, false, true⟩,
   ⟨bytes "equivalences", 1, 0, 1, false, true⟩,
   ⟨bytes "extract", 1, 0, 1, false, true⟩,
   ⟨bytes "factor", 1, 0, 1, false, true⟩,
   ⟨bytes "factorcandrounds", 2, 0, 2147483647, false, true⟩,
   ⟨bytes "factordelay", 4, 0, 12, false, true⟩,
   ⟨bytes "factoreffort", 50, 0, 1000000, false, true⟩,
   ⟨bytes "factorhops", 3, 1, 10, false, true⟩,
   ⟨bytes "factoriniticks", 700, 1, 1000000, false, true⟩,
   ⟨bytes "factorsize", 5, 2, 2147483647, false, true⟩,
   ⟨bytes "factorstructural", 0, 0, 1, false, true⟩,
   ⟨bytes "fastel", 0, 0, 1, false, true⟩,
   ⟨bytes "fastelclslim", 100, 1, 2147483647, false, true⟩,
   ⟨bytes "fastelim", 8, 1, 1000, false, true⟩,
   ⟨bytes "fasteloccs", 100, 1, 1000, false, true⟩,
   ⟨bytes "fastelrounds", 4, 1, 1000, false, true⟩,
   ⟨bytes "fastelsub", 1, 0, 1, false, true⟩,
   ⟨bytes "flushproof", 0, 0, 1, false, true⟩,
   ⟨bytes "focusedtiers", 1, 0, 1, false, true⟩,
   ⟨bytes "forcephase", 0, 0, 1, false, true⟩,
   ⟨bytes "forward", 1, 0, 1, false, true⟩,
   ⟨bytes "forwardeffort", 100, 0, 1000000, false, true⟩,
   ⟨bytes "ifthenelse", 1, 0, 1, false, true⟩,
   ⟨bytes "incremental", 0, 0, 1, false, true⟩,
   ⟨bytes "jumpreasons", 1, 0, 1, false, true⟩,
   ⟨bytes "lucky", 1, 0, 1, false, true⟩,
   ⟨bytes "luckyearly", 1, 0, 1, false, true⟩,
   ⟨bytes "luckylate", 1, 0, 1, false, true⟩,
   ⟨bytes "mineffort", 10, 0, 2147483647, false, true⟩,
   ⟨bytes "minimize", 1, 0, 1, false, true⟩,
   ⟨bytes "minimizedepth", 1000, 1, 1000000, false, true⟩,
   ⟨bytes "minimizeticks", 1, 0, 1, false, true⟩,
   ⟨bytes "modeinit", 1000, 10, 100000000, false, true⟩,
   ⟨bytes "modeint", 1000, 10, 100000000, false, true⟩,
   ⟨bytes "otfs", 1, 0, 1, false, true⟩,
   ⟨bytes "phase", 1, 0, 1, false, true⟩,
   ⟨bytes "phasesaving", 1, 0, 1, false, true⟩,
   ⟨bytes "preprocess", 1, 0, 1, false, true⟩,
   ⟨bytes "preprocessbackbone", 1, 0, 1, false, true⟩,
   ⟨bytes "preprocesscongruence", 1, 0, 1, false, true⟩,
   ⟨bytes "preprocessfactor", 1, 0, 1, false, true⟩,
   ⟨bytes "preprocessprobe", 1, 0, 1, false, true⟩,
   ⟨bytes "preprocessrounds", 1, 1, 2147483647, false, true⟩,
   ⟨bytes "preprocessweep", 1, 0, 1, false, true⟩,
   ⟨bytes "probe", 1, 0, 1, false, true⟩,
   ⟨bytes "probeinit", 100, 0, 2147483647, false, true⟩,
   ⟨bytes "probeint", 100, 2, 2147483647, false, true⟩,
   ⟨bytes "proberounds", 2, 1, 2147483647, false, true⟩,
   ⟨bytes "profile", 2, 0, 4, false, true⟩,
   ⟨bytes "promote", 1, 0, 1, false, true⟩,
   ⟨bytes "quiet", 0, 0, 1, false, true⟩,
   ⟨bytes "randec", 1, 0, 1, false, true⟩,
   ⟨bytes "randecfocused", 1, 0, 1, false, true⟩,
   ⟨bytes "randecinit", 500, 0, 2147483647, false, true⟩,
   ⟨bytes "randecint", 500, 0, 2147483647, false, true⟩,
   ⟨bytes "randeclength", 10, 1, 2147483647, false, true⟩,
   ⟨bytes "randecstable", 0, 0, 1, false, true⟩,
   ⟨bytes "reduce", 1, 0, 1, false, true⟩,
   ⟨bytes "reducehigh", 900, 0, 1000, false, true⟩,
   ⟨bytes "reduceinit", 1000, 2, 100000, false, true⟩,
   ⟨bytes "reduceint", 1000, 2, 100000, false, true⟩,
   ⟨bytes "reducelow", 500, 0, 1000, false, true⟩,
   ⟨bytes "reluctant", 1, 0, 1, false, true⟩,
   ⟨bytes "reluctantint", 1024, 2, 32768, false, true⟩,
   ⟨bytes "reluctantlim", 1048576, 0, 1073741824, false, true⟩,
   ⟨bytes "reorder", 2, 0, 2, false, true⟩,
   ⟨bytes "reorderinit", 10000, 0, 100000, false, true⟩,
   ⟨bytes "reorderint", 10000, 1, 100000, false, true⟩,
   ⟨bytes "reordermaxsize", 100, 2, 256, false, true⟩,
   ⟨bytes "rephase", 1, 0, 1, false, true⟩,
   ⟨bytes "rephaseinit", 1000, 10, 100000, false, true⟩,
   ⟨bytes "rephaseint", 1000, 10, 100000, false, true⟩,
   ⟨bytes "restart", 1, 0, 1, false, true⟩,
   ⟨bytes "restartint", 1, 1, 10000, false, true⟩,
   ⟨bytes "restartmargin", 10, 0, 25, false, true⟩,
   ⟨bytes "restartreusetrail", 1, 0, 1, false, true⟩,
   ⟨bytes "seed", 0, 0, 2147483647, false, true⟩,
   ⟨bytes "shrink", 3, 0, 3, false, true⟩,
   ⟨bytes "simplify", 1, 0, 1, false, true⟩,
   ⟨bytes "smallclauses", 100000, 0, 2147483647, false, true⟩,
   ⟨bytes "stable", 1, 0, 2, false, true⟩,
   ⟨bytes "statistics", 0, 0, 1, false, true⟩,
   ⟨bytes "substitute", 1, 0, 1, false, true⟩,
   ⟨bytes "substituteeffort", 10, 1, 1000, false, true⟩,
   ⟨bytes "substituterounds", 2, 1, 100, false, true⟩,
   ⟨bytes "subsumeclslim", 1000, 1, 2147483647, false, true⟩,
   ⟨bytes "subsumeocclim", 1000, 0, 2147483647, false, true⟩,
   ⟨bytes "sweep", 1, 0, 1, false, true⟩,
   ⟨bytes "sweepclauses", 1024, 0, 2147483647, false, true⟩,
   ⟨bytes "sweepcomplete", 0, 0, 1, false, true⟩,
   ⟨bytes "sweepdepth", 2, 0, 2147483647, false, true⟩,
   ⟨bytes "sweepeffort", 100, 0, 10000, false, true⟩,
   ⟨bytes "sweepfliprounds", 1, 0, 2147483647, false, true⟩,
   ⟨bytes "sweepmaxclauses", 32768, 2, 2147483647, false, true⟩,
   ⟨bytes "sweepmaxdepth", 3, 1, 2147483647, false, true⟩,
   ⟨bytes "sweepmaxvars", 8192, 2, 2147483647, false, true⟩,
   ⟨bytes "sweeprand", 0, 0, 1, false, true⟩,
   ⟨bytes "sweepvars", 256, 0, 2147483647, false, true⟩,
   ⟨bytes "target", 1, 0, 2, false, true⟩,
   ⟨bytes "tier1", 2, 1, 100, false, true⟩,
   ⟨bytes "tier1relative", 500, 0, 1000, false, true⟩,
   ⟨bytes "tier2", 6, 1, 1000, false, true⟩,
   ⟨bytes "tier2relative", 900, 0, 1000, false, true⟩,
   ⟨bytes "transitive", 1, 0, 1, false, true⟩,
   ⟨bytes "transitiveeffort", 20, 0, 2000, false, true⟩,
   ⟨bytes "transitivekeep", 1, 0, 1, false, true⟩,
   ⟨bytes "tumble", 1, 0, 1, false, true⟩,
   ⟨bytes "verbose", 0, 0, 3, false, true⟩,
   ⟨bytes "vivify", 1, 0, 1, false, true⟩,
   ⟨bytes "vivifyeffort", 100, 0, 1000, false, true⟩,
   ⟨bytes "vivifyfocusedtiers", 1, 0, 1, false, true⟩,
   ⟨bytes "vivifyirr", 3, 0, 100, false, true⟩,
   ⟨bytes "vivifysort", 1, 0, 1, false, true⟩,
   ⟨bytes "vivifytier1", 3, 0, 100, false, true⟩,
   ⟨bytes "vivifytier2", 3, 0, 100, false, true⟩,
   ⟨bytes "vivifytier3", 1, 0, 100, false, true⟩,
   ⟨bytes "walkeffort", 50, 0, 1000000, false, true⟩,
   ⟨bytes "walkinitially", 0, 0, 1, false, true⟩,
   ⟨bytes "warmup", 1, 0, 1, false, true⟩]

/-- The options of CaDiCaL (cadical/vendor/src/options.hpp l.20-290) in a build without the features for logging and quiet
operation. -/
def cadicalTable : List Opt :=
  [⟨bytes "arena", 1, 0, 1, false, true⟩,
   ⟨bytes "arenacompact", 1, 0, 1, false, true⟩,
   ⟨bytes "arenasort", 1, 0, 1, false, true⟩,
   ⟨bytes "arenatype", 3, 1, 3, false, true⟩,
   ⟨bytes "backbone", 1, 0, 2, false, true⟩,
   ⟨bytes "backboneeffort", 20, 0, 100000, false, true⟩,
   ⟨bytes "backbonemaxrounds", 1000, 0, 100000, false, true⟩,
   ⟨bytes "backbonerounds", 100, 0, 100000, false, true⟩,
   ⟨bytes "backbonethresh", 5, 0, 1000000000, false, true⟩,
   ⟨bytes "binary", 1, 0, 1, false, true⟩,
   ⟨bytes "block", 0, 0, 1, true, true⟩,
   ⟨bytes "blockmaxclslim", 100000, 1, 2000000000, false, true⟩,
   ⟨bytes "blockminclslim", 2, 2, 2000000000, false, true⟩,
   ⟨bytes "blockocclim", 100, 1, 2000000000, false, true⟩,
   ⟨bytes "bump", 1, 0, 1, false, true⟩,
   ⟨bytes "bumpreason", 1, 0, 1, false, true⟩,
   ⟨bytes "bumpreasondepth", 1, 1, 3, false, true⟩,
   ⟨bytes "bumpreasonlimit", 10, 1, 2000000000, false, true⟩,
   ⟨bytes "bumpreasonrate", 100, 1, 2000000000, false, true⟩,
   ⟨bytes "check", 0, 0, 1, false, false⟩,
   ⟨bytes "checkassumptions", 1, 0, 1, false, false⟩,
   ⟨bytes "checkconstraint", 1, 0, 1, false, false⟩,
   ⟨bytes "checkfailed", 1, 0, 1, false, false⟩,
   ⟨bytes "checkfrozen", 0, 0, 1, false, false⟩,
   ⟨bytes "checkproof", 3, 0, 3, false, false⟩,
   ⟨bytes "checkwitness", 1, 0, 1, false, false⟩,
   ⟨bytes "chrono", 1, 0, 2, false, true⟩,
   ⟨bytes "chronoalways", 0, 0, 1, false, true⟩,
   ⟨bytes "chronolevelim", 100, 0, 2000000000, false, true⟩,
   ⟨bytes "chronoreusetrail", 1, 0, 1, false, true⟩,
   ⟨bytes "compact", 1, 0, 1, true, true⟩,
   ⟨bytes "compactint", 2000, 1, 2000000000, false, true⟩,
   ⟨bytes "compactlim", 100, 0, 1000, false, true⟩,
   ⟨bytes "compactmin", 100, 1, 2000000000, false, true⟩,
   ⟨bytes "condition", 0, 0, 1, true, true⟩,
   ⟨bytes "conditioneffort", 100, 1, 100000, false, true⟩,
   ⟨bytes "conditionint", 10000, 1, 2000000000, false, true⟩,
   ⟨bytes "conditionmaxeff", 10000000, 0, 2000000000, false, true⟩,
   ⟨bytes "conditionmaxrat", 100, 1, 2000000000, false, true⟩,
   ⟨bytes "conditionmineff", 0, 0, 2000000000, false, true⟩,
   ⟨bytes "congruence", 1, 0, 1, true, true⟩,
   ⟨bytes "congruenceand", 1, 0, 1, false, true⟩,
   ⟨bytes "congruenceandarity", 1000000, 2, 50000000, false, true⟩,
   ⟨bytes "congruencebinaries", 1, 0, 1, false, true⟩,
   ⟨bytes "congruenceite", 1, 0, 1, false, true⟩,
   ⟨bytes "congruencexor", 1, 0, 1, false, true⟩,
   ⟨bytes "congruencexorarity", 4, 2, 31, false, true⟩,
   ⟨bytes "congruencexorcounts", 1, 1, 5000000, false, true⟩,
   ⟨bytes "cover", 0, 0, 1, true, true⟩,
   ⟨bytes "covereffort", 4, 1, 100000, false, true⟩,
   ⟨bytes "covermaxclslim", 100000, 1, 2000000000, false, true⟩,
   ⟨bytes "covermaxeff", 100000000, 0, 2000000000, false, true⟩,
   ⟨bytes "coverminclslim", 2, 2, 2000000000, false, true⟩,
   ⟨bytes "covermineff", 0, 0, 2000000000, false, true⟩,
   ⟨bytes "decompose", 1, 0, 1, true, true⟩,
   ⟨bytes "decomposerounds", 2, 1, 16, false, true⟩,
   ⟨bytes "deduplicate", 1, 0, 1, true, true⟩,
   ⟨bytes "deduplicateallinit", 0, 0, 1, true, true⟩,
   ⟨bytes "eagersubsume", 1, 0, 1, true, true⟩,
   ⟨bytes "eagersubsumelim", 20, 1, 1000, false, true⟩,
   ⟨bytes "elim", 1, 0, 1, true, true⟩,
   ⟨bytes "elimands", 1, 0, 1, false, true⟩,
   ⟨bytes "elimbackward", 1, 0, 1, false, true⟩,
   ⟨bytes "elimboundmax", 16, -1, 2000000, false, true⟩,
   ⟨bytes "elimboundmin", 0, -1, 2000000, false, true⟩,
   ⟨bytes "elimclslim", 100, 2, 2000000000, false, true⟩,
   ⟨bytes "elimdef", 0, 0, 1, false, true⟩,
   ⟨bytes "elimdefcores", 1, 1, 100, false, true⟩,
   ⟨bytes "elimdefticks", 200000, 0, 2000000000, false, true⟩,
   ⟨bytes "elimeffort", 1000, 1, 100000, false, true⟩,
   ⟨bytes "elimequivs", 1, 0, 1, false, true⟩,
   ⟨bytes "elimint", 2000, 1, 2000000000, false, true⟩,
   ⟨bytes "elimites", 1, 0, 1, false, true⟩,
   ⟨bytes "elimlimited", 1, 0, 1, false, true⟩,
   ⟨bytes "elimmaxeff", 2000000000, 0, 2000000000, false, true⟩,
   ⟨bytes "elimmineff", 10000000, 0, 2000000000, false, true⟩,
   ⟨bytes "elimocclim", 100, 0, 2000000000, false, true⟩,
   ⟨bytes "elimprod", 1, 0, 10000, false, true⟩,
   ⟨bytes "elimrounds", 2, 1, 512, false, true⟩,
   ⟨bytes "elimsubst", 1, 0, 1, false, true⟩,
   ⟨bytes "elimsum", 1, 0, 10000, false, true⟩,
   ⟨bytes "elimxorlim", 5, 2, 27, false, true⟩,
   ⟨bytes "elimxors", 1, 0, 1, false, true⟩,
   ⟨bytes "emadecisions", 100000, 1, 2000000000, false, true⟩,
   ⟨bytes "emagluefast", 33, 1, 2000000000, false, true⟩,
   ⟨bytes "emaglueslow", 100000, 1, 2000000000, false, true⟩,
   ⟨bytes "emajump", 100000, 1, 2000000000, false, true⟩,
   ⟨bytes "emalevel", 100000, 1, 2000000000, false, true⟩,
   ⟨bytes "emasize", 100000, 1, 2000000000, false, true⟩,
   ⟨bytes "ematrailfast", 100, 1, 2000000000, false, true⟩,
   ⟨bytes "ematrailslow", 100000, 1, 2000000000, false, true⟩,
   ⟨bytes "exteagerreasons", 1, 0, 1, false, true⟩,
   ⟨bytes "exteagerrecalc", 1, 0, 1, false, true⟩,
   ⟨bytes "externallrat", 0, 0, 1, false, true⟩,
   ⟨bytes "factor", 0, 0, 1, true, true⟩,
   ⟨bytes "factorcandrounds", 2, 0, 2000000000, false, true⟩,
   ⟨bytes "factorcheck", 1, 0, 2, false, true⟩,
   ⟨bytes "factordelay", 4, 0, 12, false, true⟩,
   ⟨bytes "factoreffort", 50, 0, 1000000, false, true⟩,
   ⟨bytes "factoriniticks", 300, 1, 1000000, false, true⟩,
   ⟨bytes "factorsize", 5, 2, 2000000000, false, true⟩,
   ⟨bytes "factorthresh", 7, 0, 100, false, true⟩,
   ⟨bytes "factorunbump", 1, 0, 1, true, true⟩,
   ⟨bytes "fastelim", 1, 0, 1, true, true⟩,
   ⟨bytes "fastelimbound", 8, 1, 1000, false, true⟩,
   ⟨bytes "fastelimclslim", 100, 2, 2000000000, false, true⟩,
   ⟨bytes "fastelimocclim", 100, 1, 2000000000, false, true⟩,
   ⟨bytes "fastelimrounds", 4, 1, 512, false, true⟩,
   ⟨bytes "flush", 0, 0, 1, true, true⟩,
   ⟨bytes "flushfactor", 3, 1, 1000, false, true⟩,
   ⟨bytes "flushint", 100000, 1, 2000000000, false, true⟩,
   ⟨bytes "forcephase", 0, 0, 1, false, true⟩,
   ⟨bytes "frat", 0, 0, 2, false, true⟩,
   ⟨bytes "idrup", 0, 0, 1, false, true⟩,
   ⟨bytes "ilb", 0, 0, 2, false, true⟩,
   ⟨bytes "incdecay", 1, 0, 4, false, true⟩,
   ⟨bytes "incdecayint", 1000000, 1, 2000000000, false, true⟩,
   ⟨bytes "inprobeint", 100, 1, 2000000000, false, true⟩,
   ⟨bytes "inprobing", 1, 0, 1, true, true⟩,
   ⟨bytes "inprocessing", 1, 0, 1, true, true⟩,
   ⟨bytes "instantiate", 0, 0, 1, true, true⟩,
   ⟨bytes "instantiateclslim", 3, 2, 2000000000, false, true⟩,
   ⟨bytes "instantiateocclim", 1, 1, 2000000000, false, true⟩,
   ⟨bytes "instantiateonce", 1, 0, 1, false, true⟩,
   ⟨bytes "lidrup", 0, 0, 1, false, true⟩,
   ⟨bytes "lrat", 0, 0, 1, false, true⟩,
   ⟨bytes "lucky", 1, 0, 1, false, true⟩,
   ⟨bytes "luckyassumptions", 1, 0, 1, false, true⟩,
   ⟨bytes "luckyearly", 1, 0, 1, false, true⟩,
   ⟨bytes "luckylate", 1, 0, 1, false, true⟩,
   ⟨bytes "minimize", 1, 0, 1, false, true⟩,
   ⟨bytes "minimizedepth", 1000, 0, 1000, false, true⟩,
   ⟨bytes "minimizeticks", 1, 0, 1, false, true⟩,
   ⟨bytes "otfs", 1, 0, 1, false, true⟩,
   ⟨bytes "phase", 1, 0, 1, false, true⟩,
   ⟨bytes "preprocessinit", 2000000, 0, 2000000000, false, true⟩,
   ⟨bytes "preprocesslight", 1, 0, 1, true, true⟩,
   ⟨bytes "probe", 1, 0, 1, true, true⟩,
   ⟨bytes "probeeffort", 8, 1, 100000, false, true⟩,
   ⟨bytes "probehbr", 1, 0, 1, false, true⟩,
   ⟨bytes "probethresh", 0, 0, 100, false, true⟩,
   ⟨bytes "profile", 2, 0, 4, false, false⟩,
   ⟨bytes "quiet", 0, 0, 1, false, false⟩,
   ⟨bytes "radixsortlim", 32, 0, 2000000000, false, true⟩,
   ⟨bytes "randec", 0, 0, 1, false, true⟩,
   ⟨bytes "randecfocused", 1, 0, 1, false, true⟩,
   ⟨bytes "randecinit", 1000, 2, 2000000000, false, true⟩,
   ⟨bytes "randecint", 500, 0, 2000000000, false, true⟩,
   ⟨bytes "randeclength", 10, 1, 1000000000, false, true⟩,
   ⟨bytes "randecstable", 0, 0, 1, false, true⟩,
   ⟨bytes "realtime", 0, 0, 1, false, false⟩,
   ⟨bytes "recomputetier", 1, 0, 1, false, true⟩,
   ⟨bytes "reduce", 1, 0, 1, false, true⟩,
   ⟨bytes "reduceinit", 300, 1, 1000000, false, true⟩,
   ⟨bytes "reduceint", 25, 2, 1000000, false, true⟩,
   ⟨bytes "reduceopt", 1, 0, 2, false, true⟩,
   ⟨bytes "reducetarget", 75, 10, 100, false, true⟩,
   ⟨bytes "reducetier1glue", 2, 1, 2000000000, false, true⟩,
   ⟨bytes "reducetier2glue", 6, 1, 2000000000, false, true⟩,
   ⟨bytes "reluctant", 1, 0, 1, false, true⟩,
   ⟨bytes "reluctantint", 1024, 0, 2000000000, false, true⟩,
   ⟨bytes "reluctantmax", 1048576, 0, 2000000000, false, true⟩,
   ⟨bytes "rephase", 1, 0, 2, false, true⟩,
   ⟨bytes "rephaseint", 1000, 1, 2000000000, false, true⟩,
   ⟨bytes "report", 0, 0, 1, false, true⟩,
   ⟨bytes "reportall", 0, 0, 1, false, true⟩,
   ⟨bytes "reportsolve", 0, 0, 1, false, true⟩,
   ⟨bytes "restart", 1, 0, 1, false, true⟩,
   ⟨bytes "restartint", 2, 1, 2000000000, false, true⟩,
   ⟨bytes "restartmarginfocused", 10, 0, 25, false, true⟩,
   ⟨bytes "restartmarginstable", 25, 0, 25, false, true⟩,
   ⟨bytes "restartreusetrail", 1, 0, 1, false, true⟩,
   ⟨bytes "restoreall", 0, 0, 2, false, true⟩,
   ⟨bytes "restoreflush", 0, 0, 1, false, true⟩,
   ⟨bytes "reverse", 0, 0, 1, false, true⟩,
   ⟨bytes "score", 1, 0, 1, false, true⟩,
   ⟨bytes "scorefactor", 950, 500, 1000, false, true⟩,
   ⟨bytes "seed", 0, 0, 2000000000, false, true⟩,
   ⟨bytes "shrink", 3, 0, 3, false, true⟩,
   ⟨bytes "shrinkreap", 1, 0, 1, false, true⟩,
   ⟨bytes "shuffle", 0, 0, 1, false, true⟩,
   ⟨bytes "shufflequeue", 1, 0, 1, false, true⟩,
   ⟨bytes "shufflerandom", 0, 0, 1, false, true⟩,
   ⟨bytes "shufflescores", 1, 0, 1, false, true⟩,
   ⟨bytes "stabilize", 1, 0, 1, false, true⟩,
   ⟨bytes "stabilizeinit", 1000, 1, 2000000000, false, true⟩,
   ⟨bytes "stabilizeonly", 0, 0, 1, false, true⟩,
   ⟨bytes "stats", 0, 0, 1, false, true⟩,
   ⟨bytes "stubbornIOfocused", 0, 0, 1, false, true⟩,
   ⟨bytes "subsume", 1, 0, 1, true, true⟩,
   ⟨bytes "subsumebinlim", 10000, 0, 2000000000, false, true⟩,
   ⟨bytes "subsumeclslim", 100, 0, 2000000000, false, true⟩,
   ⟨bytes "subsumeeffort", 1000, 1, 100000, false, true⟩,
   ⟨bytes "subsumelimited", 1, 0, 1, false, true⟩,
   ⟨bytes "subsumemaxeff", 100000000, 0, 2000000000, false, true⟩,
   ⟨bytes "subsumemineff", 0, 0, 2000000000, false, true⟩,
   ⟨bytes "subsumeocclim", 100, 0, 2000000000, false, true⟩,
   ⟨bytes "subsumestr", 1, 0, 1, false, true⟩,
   ⟨bytes "sweep", 1, 0, 1, true, true⟩,
   ⟨bytes "sweepclauses", 1024, 0, 2000000000, false, true⟩,
   ⟨bytes "sweepcomplete", 0, 0, 1, false, true⟩,
   ⟨bytes "sweepcountbinary", 1, 0, 1, false, true⟩,
   ⟨bytes "sweepdepth", 2, 0, 2000000000, false, true⟩,
   ⟨bytes "sweepeffort", 100, 0, 10000, false, true⟩,
   ⟨bytes "sweepfliprounds", 1, 0, 2000000000, false, true⟩,
   ⟨bytes "sweepmaxclauses", 300000, 2, 2000000000, false, true⟩,
   ⟨bytes "sweepmaxdepth", 3, 1, 2000000000, false, true⟩,
   ⟨bytes "sweepmaxvars", 8192, 2, 2000000000, false, true⟩,
   ⟨bytes "sweeprand", 0, 0, 1, false, true⟩,
   ⟨bytes "sweepthresh", 5, 0, 100, false, true⟩,
   ⟨bytes "sweepvars", 256, 0, 2000000000, false, true⟩,
   ⟨bytes "target", 1, 0, 2, false, true⟩,
   ⟨bytes "terminateint", 10, 0, 10000, false, true⟩,
   ⟨bytes "ternary", 1, 0, 1, true, true⟩,
   ⟨bytes "ternaryeffort", 8, 1, 100000, false, true⟩,
   ⟨bytes "ternarymaxadd", 1000, 0, 10000, false, true⟩,
   ⟨bytes "ternaryocclim", 100, 1, 2000000000, false, true⟩,
   ⟨bytes "ternaryrounds", 2, 1, 16, false, true⟩,
   ⟨bytes "ternarythresh", 6, 0, 100, false, true⟩,
   ⟨bytes "tier1limit", 50, 0, 100, false, true⟩,
   ⟨bytes "tier1minglue", 0, 0, 100, false, true⟩,
   ⟨bytes "tier2limit", 90, 0, 100, false, true⟩,
   ⟨bytes "tier2minglue", 0, 0, 100, false, true⟩,
   ⟨bytes "transred", 1, 0, 1, true, true⟩,
   ⟨bytes "transredeffort", 100, 1, 100000, false, true⟩,
   ⟨bytes "transredmaxeff", 100000000, 0, 2000000000, false, true⟩,
   ⟨bytes "transredmineff", 0, 0, 2000000000, false, true⟩,
   ⟨bytes "verbose", 0, 0, 3, false, false⟩,
   ⟨bytes "veripb", 0, 0, 4, false, true⟩,
   ⟨bytes "vivify", 1, 0, 1, true, true⟩,
   ⟨bytes "vivifycalctier", 0, 0, 1, false, true⟩,
   ⟨bytes "vivifydemote", 0, 0, 1, true, true⟩,
   ⟨bytes "vivifyeffort", 50, 0, 100000, false, true⟩,
   ⟨bytes "vivifyflush", 1, 0, 1, false, true⟩,
   ⟨bytes "vivifyinst", 1, 0, 1, false, true⟩,
   ⟨bytes "vivifyirred", 1, 0, 1, false, true⟩,
   ⟨bytes "vivifyirredeff", 3, 1, 100, false, true⟩,
   ⟨bytes "vivifyonce", 0, 0, 2, false, true⟩,
   ⟨bytes "vivifyretry", 0, 0, 5, false, true⟩,
   ⟨bytes "vivifyschedmax", 5000, 10, 2000000000, false, true⟩,
   ⟨bytes "vivifythresh", 20, 0, 100, false, true⟩,
   ⟨bytes "vivifytier1", 1, 0, 1, false, true⟩,
   ⟨bytes "vivifytier1eff", 4, 0, 100, false, true⟩,
   ⟨bytes "vivifytier2", 1, 0, 1, false, true⟩,
   ⟨bytes "vivifytier2eff", 2, 1, 100, false, true⟩,
   ⟨bytes "vivifytier3", 1, 0, 1, false, true⟩,
   ⟨bytes "vivifytier3eff", 1, 1, 100, false, true⟩,
   ⟨bytes "walk", 1, 0, 1, false, true⟩,
   ⟨bytes "walkeffort", 80, 1, 100000, false, true⟩,
   ⟨bytes "walkfullocc", 0, 0, 1, false, true⟩,
   ⟨bytes "walkmaxeff", 10000000, 0, 2000000000, false, true⟩,
   ⟨bytes "walkmineff", 0, 0, 10000000, false, true⟩,
   ⟨bytes "walknonstable", 1, 0, 1, false, true⟩,
   ⟨bytes "walkredundant", 0, 0, 1, false, true⟩,
   ⟨bytes "warmup", 1, 0, 1, false, true⟩]

end RustSat.SolverOptions
