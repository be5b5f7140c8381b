import Verif.Model.Types

/-!
# Model of `src/hyphenation.rs`
-/

namespace Louis

open Regexp (Fault)

/-- hyphenation.rs:16-25 `struct HyphenationTable`.  `patterns` is the `HashMap<String, Vec<u8>>` as the list of insertions,
latest first (`HashMap::insert` replaces). -/
structure Hyphenation where
  patterns : List (Text × List Nat)
  leftMin : Nat
  rightMin : Nat
  deriving Repr, DecidableEq

/-- `patterns.get(key)`. -/
def Hyphenation.get (h : Hyphenation) (key : Text) : Option (List Nat) := (h.patterns.find? (·.1 == key)).map (·.2)

/-- hyphenation.rs:126-131: raise the scores from gap `gap` on to at least the pattern's values; `scores[gap]` panics out of
range. -/
def raiseScores : List Nat → Nat → List Nat → Except Fault (List Nat)
  | scores, _, [] => .ok scores
  | scores, gap, v :: vs =>
    match scores[gap]? with
    | none => .error .panic
    | some s => raiseScores (if v > s then scores.set gap v else scores) (gap + 1) vs

/-- hyphenation.rs:124-133, the inner loop over `end`, for the pieces of `wrapped` that start at `start`;
`done` is the part of the piece already taken, `rest` what follows it. -/
def scoreEnds (h : Hyphenation) (start : Nat) (done : Text) : Text → List Nat → Except Fault (List Nat)
  | [], scores => .ok scores
  | c :: rest, scores =>
    match (match h.get (done ++ [c]) with
      | some tally => raiseScores scores start tally
      | none => .ok scores) with
    | .error e => .error e
    | .ok scores => scoreEnds h start (done ++ [c]) rest scores

/-- hyphenation.rs:123-134, the loop over `start`. -/
def scoreStarts (h : Hyphenation) (start : Nat) : Text → List Nat → Except Fault (List Nat)
  | [], scores => .ok scores
  | c :: rest, scores =>
    match scoreEnds h start [] (c :: rest) scores with
    | .error e => .error e
    | .ok scores => scoreStarts h (start + 1) rest scores

/-- hyphenation.rs:97-150 `break_points`. -/
def Hyphenation.breakPoints (h : Hyphenation) (word : Text) : Except Fault (List Bool) :=
  let n := word.length
  if n < 2 then .ok []
  else if n < h.leftMin + h.rightMin then .ok (List.replicate (n - 1) false)
  else
    let wrapped := '.' :: word ++ ['.']
    match scoreStarts h 0 wrapped (List.replicate (wrapped.length + 1) 0) with
    | .error e => .error e
    | .ok scores =>
      .ok ((List.range (n - 1)).map fun i =>
        decide ((scores[i + 2]?).getD 0 % 2 ≠ 0) && decide (i + 1 ≥ h.leftMin) && decide (i + 1 ≤ n - h.rightMin))

/-- Decimal value of a digit character, `char::to_digit(10)`. -/
def digit10 (c : Char) : Option Nat := if '0' ≤ c ∧ c ≤ '9' then some (c.toNat - 48) else none

/-- hyphenation.rs:174-182, the loop of `parse_pattern`: letters and scores so far (scores never empty; last one first). -/
def patternLoop : Text → Text → List Nat → Text × List Nat
  | [], letters, tally => (letters, tally.reverse)
  | c :: cs, letters, tally =>
    match digit10 c with
    | some d => patternLoop cs letters (d :: tally.tail)
    | none => patternLoop cs (letters ++ [c]) (0 :: tally)

/-- hyphenation.rs:171-190 `parse_pattern`; `none` is `PatternWithoutValue`. -/
def parsePattern (p : Text) : Option (Text × List Nat) :=
  let (letters, tally) := patternLoop p [] [0]
  if tally.all (· == 0) then none else some (letters, tally)

/-! ## The dictionary file -/

/-- `char::is_whitespace` (the Unicode property `White_Space`). -/
def isWhitespace (c : Char) : Bool :=
  let n := c.toNat
  (9 ≤ n && n ≤ 13) || n == 32 || n == 0x85 || n == 0xA0 || n == 0x1680 || (0x2000 ≤ n && n ≤ 0x200A) || n == 0x2028 ||
    n == 0x2029 || n == 0x202F || n == 0x205F || n == 0x3000

/-- `str::trim`. -/
def trim (l : Text) : Text := ((l.dropWhile isWhitespace).reverse.dropWhile isWhitespace).reverse

/-- `char::to_ascii_lowercase`. -/
def asciiLow (c : Char) : Char := if 'A' ≤ c ∧ c ≤ 'Z' then Char.ofNat (c.toNat + 32) else c

/-- `str::eq_ignore_ascii_case`. -/
def eqIgnoreCase (a b : Text) : Bool := a.map asciiLow == b.map asciiLow

/-- `str::strip_prefix`. -/
def stripPrefix (pre l : Text) : Option Text := if pre.isPrefixOf l then some (l.drop pre.length) else none

/-- The value of a list of decimal digits, most significant first. -/
def digitsValue : Text → Option Nat
  | [] => some 0
  | ds => ds.foldl (fun acc c => acc.bind fun a => (digit10 c).map (10 * a + ·)) (some 0)

/-- `usize::from_str` on a 64-bit target: digits with an optional `+`, at most `2^64 - 1`. -/
def parseUsize (l : Text) : Option Nat :=
  let ds := match l with
    | '+' :: ds => ds
    | ds => ds
  if ds = [] then none else
    match digitsValue ds with
    | some n => if n < 2 ^ 64 then some n else none
    | none => none

/-- hyphenation.rs:28-42 `enum ParseError` (without the line and text quoted in messages). -/
inductive DicError where
  | invalidHyphenMin
  | patternWithoutValue
  | unsupportedEncoding
  deriving Repr, DecidableEq

/-- hyphenation.rs:58-86, the body of the loop for one line; `none` is `continue` without effect. -/
def dicLine (h : Hyphenation) (first : Bool) (raw : Text) : Except DicError Hyphenation :=
  let line := trim raw
  if line = [] then .ok h
  else if first && eqIgnoreCase line "UTF-8".toList then .ok h
  else if first && eqIgnoreCase line "ISO8859-1".toList then .error .unsupportedEncoding
  else if line.head? = some '#' ∨ line.head? = some '%' then .ok h
  else match stripPrefix "LEFTHYPHENMIN".toList line with
    | some rest => match parseUsize (trim rest) with
      | some n => .ok { h with leftMin := n }
      | none => .error .invalidHyphenMin
    | none => match stripPrefix "RIGHTHYPHENMIN".toList line with
      | some rest => match parseUsize (trim rest) with
        | some n => .ok { h with rightMin := n }
        | none => .error .invalidHyphenMin
      | none => match parsePattern line with
        | some p => .ok { h with patterns := p :: h.patterns }
        | none => .error .patternWithoutValue

/-- hyphenation.rs:50-90 `parse`: the loop over the remaining lines. -/
def dicLoop : Hyphenation → Bool → List Text → Except DicError Hyphenation
  | h, _, [] => .ok h
  | h, first, l :: ls => match dicLine h first l with
    | .error e => .error e
    | .ok h => dicLoop h false ls

/-- hyphenation.rs:50-90 `HyphenationTable::parse`, on the lines of the file (`lines` of Model/Lexer is `str::lines`). -/
def parseDic (lines : List Text) : Except DicError Hyphenation := dicLoop ⟨[], 1, 1⟩ true lines

end Louis
