import Verif.Model.Clustering
import Mathlib.Data.Int.Log
import Mathlib.Data.Rat.Floor
/-
The text input of the clustering encoding (tools/src/encodings/cnf/clustering.rs l.129-174, l.406-413 and
tools/src/bin/encodings.rs l.200-221). Floating-point numbers are modelled as rational numbers with the rounding of IEEE 754
(binary64, to nearest, ties to even).
-/
namespace RustSat
namespace Clustering
open P

/-! ### Floating-point numbers -/

/-- A number of type `f64`. Zero has no sign here; the sign of zero has no effect on the tool. -/
inductive F64 where
  | nan
  | inf (neg : Bool)
  | fin (q : ℚ)
deriving DecidableEq

/-- Rounding to the nearest integer, ties to even. -/
def roundEven (q : ℚ) : ℤ :=
  if q - ⌊q⌋ < 1 / 2 then ⌊q⌋
  else if 1 / 2 < q - ⌊q⌋ then ⌊q⌋ + 1
  else if ⌊q⌋ % 2 = 0 then ⌊q⌋ else ⌊q⌋ + 1

/-- The exponent of the last place: 53 significant bits, but not below `2^-1074`. -/
def lastPlace (q : ℚ) : ℤ := max (Int.log 2 |q| - 52) (-1074)

/-- Rounding without limit on the exponent. -/
def roundBits (q : ℚ) : ℚ := roundEven (q / 2 ^ lastPlace q) * 2 ^ lastPlace q

/-- Rounding to a number of type `f64`. -/
def F64.round (q : ℚ) : F64 := if 2 ^ 1024 ≤ |roundBits q| then .inf (decide (q < 0)) else .fin (roundBits q)

/-- The product of a number and a natural number below `2^32` (which has an exact representation). -/
def F64.mulNat : F64 → ℕ → F64
  | .nan, _ => .nan
  | .inf s, n => if n = 0 then .nan else .inf s
  | .fin q, n => F64.round (q * n)

/-- The integer part of a rational number, towards zero. -/
def truncQ (q : ℚ) : ℤ := if q < 0 then -⌊-q⌋ else ⌊q⌋

/-- `as isize`: saturating, zero for NaN. -/
def F64.toIsize : F64 → ℤ
  | .nan => 0
  | .inf true => -2 ^ 63
  | .inf false => 2 ^ 63 - 1
  | .fin q => max (-2 ^ 63) (min (2 ^ 63 - 1) (truncQ q))

/-- `scaling_map` (clustering.rs l.410-412). -/
def scalingMap (sim : F64) (multiplier : ℕ) : ℤ := (sim.mulNat multiplier).toIsize

/-! ### Numbers in texts -/

/-- The parts of a number in a text. -/
inductive NumberParts where
  | nan
  | inf (neg : Bool)
  | num (neg : Bool) (int frac : Text) (exp : ℤ)
deriving DecidableEq, Repr

/-- `str::parse::<f64>` on such a text: the nearest number. -/
def NumberParts.toF64 : NumberParts → F64
  | .nan => .nan
  | .inf s => .inf s
  | .num s i f e =>
    let q : ℚ := Text.readNat (i ++ f) * 10 ^ (e - f.length)
    F64.round (if s then -q else q)

/-- `digit1` of `winnow`. -/
def digit1 : P Text := fun s =>
  if (s.takeWhile Text.isDigit).isEmpty then .back else .ok (s.takeWhile Text.isDigit) (s.dropWhile Text.isDigit)

/-- An optional sign; true for a minus. -/
def signP : P Bool := map (fun o => o == some '-') (opt (sat fun c => c == '+' || c == '-'))

/-- Digits before and after the point. -/
def mantissaP : P (Text × Text) :=
  alt (seqP digit1 fun i => map (fun o : Option Text => (i, o.getD [])) (opt (seqP (char '.') fun _ => digit0)))
    (seqP (char '.') fun _ => map (fun f => ([], f)) digit1)

/-- The exponent; zero if there is none. -/
def exponentP : P ℤ :=
  map (fun o : Option ℤ => o.getD 0)
    (opt (seqP (sat fun c => c == 'e' || c == 'E') fun _ => seqP signP fun n => cutErr (map (fun d => if n then -(Text.readNat d : ℤ) else Text.readNat d) digit1)))

/-- A literal in any case (`Caseless`). -/
def caseless (t : Text) : P Unit := fun s => if (s.take t.length).map Char.toLower = t then .ok () (s.drop t.length) else .back

/-- `winnow::ascii::float` up to the conversion of its text (dependency; modelled after its documentation and source). -/
def numberP : P NumberParts :=
  alt (seqP signP fun n => seqP mantissaP fun m => map (fun e => .num n m.1 m.2 e) exponentP)
    (alt (map (fun _ => .nan) (caseless ['n', 'a', 'n']))
      (alt (seqP signP fun n => map (fun _ => .inf n) (caseless ['i', 'n', 'f', 'i', 'n', 'i', 't', 'y']))
        (seqP signP fun n => map (fun _ => .inf n) (caseless ['i', 'n', 'f']))))

/-! ### Lines -/

/-- The characters of `ident` (clustering.rs l.406-408): ASCII letters, digits and `_`. -/
def isIdent (c : Char) : Bool :=
  decide (48 ≤ c.toNat ∧ c.toNat ≤ 57 ∨ 65 ≤ c.toNat ∧ c.toNat ≤ 90 ∨ 97 ≤ c.toNat ∧ c.toNat ≤ 122 ∨ c = '_')

/-- `ident` (clustering.rs l.406-408). -/
def identP : P Text := fun s =>
  if (s.takeWhile isIdent).isEmpty then .back else .ok (s.takeWhile isIdent) (s.dropWhile isIdent)

/-- The characters of `multispace1`. -/
def isMultispace (c : Char) : Bool := c == ' ' || c == '\t' || c == '\r' || c == '\n'

/-- `multispace1` of `winnow`. -/
def multispace1 : P Unit := fun s =>
  if (s.takeWhile isMultispace).isEmpty then .back else .ok () (s.dropWhile isMultispace)

/-- The parser of a line (clustering.rs l.142-148). -/
def entryP : P (Text × Text × NumberParts) :=
  seqP identP fun x => seqP multispace1 fun _ => seqP identP fun y => seqP multispace1 fun _ => map (fun v => (x, y, v)) numberP

/-- `process_line` (clustering.rs l.135-163) without the map of identifiers, which is `identMap`: lines that cannot be parsed are
left out, as comments are (`.ok()?` in l.152 drops the error). -/
def processLine (line : Text) : Option (Text × Text × NumberParts) :=
  if Text.startsWith ['%'] (Text.trimStart line) then none else parse entryP (Text.trimStart line)

/-- Arguments of the tool (tools/src/bin/encodings.rs l.86-109). -/
structure SimArgs where
  multiplier : ℕ
  offset : ℤ
  dontCare : ℕ
  hardThreshold : ℕ

/-- The defaults of the arguments. -/
def SimArgs.default : SimArgs := ⟨1000, 500, 1, 499⟩

/-- The map from numbers to similarities (tools/src/bin/encodings.rs l.204-210). Overflow of `isize` by the offset is not
modelled. -/
def SimArgs.sim (a : SimArgs) (v : F64) : Sim := saturatingMap (scalingMap v a.multiplier - a.offset) a.dontCare a.hardThreshold

/-- The entries of a text (clustering.rs l.164-168, l.173). -/
def readInput (a : SimArgs) (t : Text) : List (Text × Text × Sim) :=
  ((Text.lines t).filterMap processLine).map fun e => (e.1, e.2.1, a.sim e.2.2.toF64)

/-- The tool on the text of its input. -/
def clusteringTextTool (args : ClusteringArgs) (a : SimArgs) (t : Text) (fuel : ℕ) : SearchResult Text :=
  clusteringTool args (readInput a t) fuel

end Clustering
end RustSat
