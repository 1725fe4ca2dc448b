import Verif.Model.Lit

/-
Text, Rust's string functions used by the readers and writers, and the `winnow` parser combinators used by
`src/instances/fio/dimacs.rs` and `src/instances/fio/opb.rs`.

`winnow` (version 1.0.4) and the formatting of integers are external code. Their documented behaviour is
modelled here and is part of the trusted base. Text is a list of Unicode characters: invalid UTF-8 (an I/O error
of `read_line`) and other I/O errors are not modelled, nor are the positions and messages inside parse errors.
-/

namespace RustSat

abbrev Text := List Char

namespace Text

/-- `char::is_whitespace` (Unicode `White_Space`), as used by `str::trim` and `str::split_whitespace`. -/
def isWs (c : Char) : Bool :=
  let n := c.toNat
  decide (9 ≤ n ∧ n ≤ 13) || n == 32 || n == 133 || n == 160 || n == 5760 || decide (8192 ≤ n ∧ n ≤ 8202) ||
    n == 8232 || n == 8233 || n == 8239 || n == 8287 || n == 12288

/-- `str::trim_start`. -/
def trimStart (s : Text) : Text := s.dropWhile isWs

/-- `str::trim_end`. -/
def trimEnd (s : Text) : Text := (s.reverse.dropWhile isWs).reverse

/-- `str::trim`. -/
def trim (s : Text) : Text := trimEnd (trimStart s)

/-- The successive results of `BufRead::read_line` on a reader over this text: each line with its `\n`, the last
one without it if the text does not end in `\n`. -/
def readLines : Text → List Text
  | [] => []
  | c :: cs =>
    if c = '\n' then ['\n'] :: readLines cs
    else
      match readLines cs with
      | [] => [[c]]
      | l :: ls => (c :: l) :: ls

/-- A line without its terminator, as yielded by `BufRead::lines` and `str::lines`: a final `\n` is removed, and
then a final `\r` if there was a `\n`. -/
def chomp (l : Text) : Text :=
  match l.reverse with
  | '\n' :: '\r' :: r => r.reverse
  | '\n' :: r => r.reverse
  | _ => l

/-- `BufRead::lines`, `str::lines`. -/
def lines (s : Text) : List Text := (readLines s).map chomp

/-- `str::split_whitespace`. -/
def splitWs : Text → List Text
  | [] => []
  | c :: cs =>
    if isWs c then splitWs cs
    else
      match cs with
      | [] => [[c]]
      | d :: _ =>
        if isWs d then [c] :: splitWs cs
        else
          match splitWs cs with
          | [] => [[c]]
          | w :: ws => (c :: w) :: ws

/-- `str::starts_with`. -/
def startsWith (p s : Text) : Bool := p.isPrefixOf s

/-! ### Numbers -/

/-- The digit character of a number below ten. -/
def digitChar (n : Nat) : Char := Char.ofNat (48 + n)

/-- `'0'..='9'`. -/
def isDigit (c : Char) : Bool := decide (48 ≤ c.toNat ∧ c.toNat ≤ 57)

/-- `'1'..='9'`. -/
def isDigit19 (c : Char) : Bool := decide (49 ≤ c.toNat ∧ c.toNat ≤ 57)

/-- Decimal digits, most significant first, with a bound on their number. -/
def showDigits : Nat → Nat → Text
  | 0, _ => []
  | f + 1, n => if n < 10 then [digitChar n] else showDigits f (n / 10) ++ [digitChar (n % 10)]

/-- `Display` of the unsigned integer types. -/
def showNat (n : Nat) : Text := showDigits (n + 1) n

/-- `Display` of the signed integer types. -/
def showInt (i : Int) : Text := if i < 0 then '-' :: showNat i.natAbs else showNat i.natAbs

/-- The number a sequence of decimal digits stands for. -/
def readNat (s : Text) : Nat := s.foldl (fun a c => a * 10 + (c.toNat - 48)) 0

end Text

/-! ### `winnow` -/

/-- Result of a `winnow` parser with error type `ErrMode<ContextError>`: a value and the rest of the input, a
recoverable error (`ErrMode::Backtrack`), an unrecoverable one (`ErrMode::Cut`), or a panic inside a function called
by the parser. -/
inductive PR (α : Type) where
  | ok (a : α) (rest : Text)
  | back
  | cut
  | panic
deriving DecidableEq, Repr

/-- A parser. -/
def P (α : Type) : Type := Text → PR α

namespace P
variable {α β : Type}

/-- `empty.value(a)`. -/
def retP (a : α) : P α := fun s => .ok a s

/-- Sequencing, as done by tuples and `seq!`. -/
def seqP (p : P α) (f : α → P β) : P β := fun s =>
  match p s with
  | .ok a r => f a r
  | .back => .back
  | .cut => .cut
  | .panic => .panic

/-- `fail`. -/
def fail : P α := fun _ => .back

/-- `Parser::map`. -/
def map (f : α → β) (p : P α) : P β := seqP p fun a => retP (f a)

/-- `alt`: the next alternative is tried, from the same position, after a recoverable error only. -/
def alt (p q : P α) : P α := fun s =>
  match p s with
  | .ok a r => .ok a r
  | .back => q s
  | .cut => .cut
  | .panic => .panic

/-- `cut_err`. -/
def cutErr (p : P α) : P α := fun s =>
  match p s with
  | .ok a r => .ok a r
  | .back => .cut
  | .cut => .cut
  | .panic => .panic

/-- `opt`. -/
def opt (p : P α) : P (Option α) := fun s =>
  match p s with
  | .ok a r => .ok (some a) r
  | .back => .ok none s
  | .cut => .cut
  | .panic => .panic

/-- `Parser::try_map`: an error of the function becomes a recoverable parser error. `none` is an error. -/
def tryMap (f : α → Option β) (p : P α) : P β := fun s =>
  match p s with
  | .ok a r =>
    match f a with
    | some b => .ok b r
    | none => .back
  | .back => .back
  | .cut => .cut
  | .panic => .panic

/-- A character parser satisfying a predicate (`one_of`, a literal character). -/
def sat (f : Char → Bool) : P Char := fun s =>
  match s with
  | c :: r => if f c then .ok c r else .back
  | [] => .back

/-- A literal character. -/
def char (c : Char) : P Char := sat (· == c)

/-- A literal string. -/
def tag (t : Text) : P Unit := fun s => if t.isPrefixOf s then .ok () (s.drop t.length) else .back

/-- `eof`. -/
def eof : P Unit := fun s => if s.isEmpty then .ok () s else .back

/-- `AsChar::is_space`: space or tab. -/
def isSpace (c : Char) : Bool := c == ' ' || c == '\t'

/-- `space0`. -/
def space0 : P Unit := fun s => .ok () (s.dropWhile isSpace)

/-- `space1`. -/
def space1 : P Unit := fun s =>
  match s with
  | c :: r => if isSpace c then .ok () (r.dropWhile isSpace) else .back
  | [] => .back

/-- `digit0`. -/
def digit0 : P Text := fun s => .ok (s.takeWhile Text.isDigit) (s.dropWhile Text.isDigit)

/-- `line_ending`. -/
def lineEnding : P Unit := alt (tag ['\n']) (tag ['\r', '\n'])

/-- `till_line_ending`: everything before `\n` or `\r\n`; a `\r` that is not followed by `\n` is an error. -/
def tillLineEnding : P Text := fun s =>
  let r := s.dropWhile fun c => !(c == '\r' || c == '\n')
  let a := s.takeWhile fun c => !(c == '\r' || c == '\n')
  match r with
  | '\r' :: '\n' :: _ => .ok a r
  | '\r' :: _ => .back
  | _ => .ok a r

/-- `dec_uint` for a type with this maximum: `0`, or a non-zero digit and further digits, optionally preceded by
`+` (src/instances/fio/dimacs.rs l.773: "intentionally accepting `+` signs"). -/
def decUint (max : Nat) : P Nat :=
  tryMap (fun ds => if Text.readNat ds ≤ max then some (Text.readNat ds) else none)
    (seqP (opt (char '+')) fun _ =>
      alt (seqP (sat Text.isDigit19) fun c => map (fun r => c :: r) digit0) (map (fun _ => ['0']) (char '0')))

/-- `dec_int` for a type with this range: an optional sign, a non-zero digit and further digits, or `0`. -/
def decInt (min max : Int) : P Int :=
  tryMap (fun p : Bool × Text =>
      let v : Int := if p.1 then -(Text.readNat p.2 : Int) else (Text.readNat p.2 : Int)
      if min ≤ v ∧ v ≤ max then some v else none)
    (alt
      (seqP (map (fun o => o == some '-') (opt (alt (char '+') (char '-')))) fun neg =>
        seqP (sat Text.isDigit19) fun c => map (fun r => (neg, c :: r)) digit0)
      (map (fun _ => (false, ['0'])) (char '0')))

/-- The loop of `separated(0.., p, sep)` after the first element. On a recoverable error of the separator or of
the element the input is reset to the position before the separator. The first argument bounds the number of
iterations; the length of the input is always enough since the separators used here consume at least one
character. -/
def sepLoop (p : P α) (sep : P Unit) : Nat → Text → PR (List α)
  | 0, s => .ok [] s
  | f + 1, s =>
    match sep s with
    | .back => .ok [] s
    | .cut => .cut
    | .panic => .panic
    | .ok _ r =>
      match p r with
      | .back => .ok [] s
      | .cut => .cut
      | .panic => .panic
      | .ok a r' =>
        match sepLoop p sep f r' with
        | .ok as r'' => .ok (a :: as) r''
        | .back => .back
        | .cut => .cut
        | .panic => .panic

/-- `separated(0.., p, sep)`. -/
def separated0 (p : P α) (sep : P Unit) : P (List α) := fun s =>
  match p s with
  | .back => .ok [] s
  | .cut => .cut
  | .panic => .panic
  | .ok a r =>
    match sepLoop p sep s.length r with
    | .ok as r' => .ok (a :: as) r'
    | .back => .back
    | .cut => .cut
    | .panic => .panic

/-- `Parser::parse`: the whole input has to be consumed. -/
def parse (p : P α) (s : Text) : Option α :=
  match p s with
  | .ok a [] => some a
  | _ => none

end P
end RustSat
