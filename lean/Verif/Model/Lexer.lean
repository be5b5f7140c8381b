import Verif.Model.Types

/-!
# Model of the lexical level of the table parser (`src/parser.rs`)

Lines, tokens and escape sequences.  A rejected input is `none`; the kinds of parse errors are not modelled.
-/

namespace Louis

/-! ## White space, lines and tokens (Rust's `str` methods) -/

/-- `char::is_ascii_whitespace`. -/
def isAsciiWs (c : Char) : Bool := c == ' ' || c == '\t' || c == '\n' || c == '\x0c' || c == '\r'

/-- `char::is_whitespace`: the characters with the Unicode property `White_Space`. -/
def isWs (c : Char) : Bool :=
  let n := c.toNat
  (0x9 ≤ n && n ≤ 0xd) || n == 0x20 || n == 0x85 || n == 0xa0 || n == 0x1680 || (0x2000 ≤ n && n ≤ 0x200a) ||
    n == 0x2028 || n == 0x2029 || n == 0x202f || n == 0x205f || n == 0x3000

/-- `str::lines`: lines end at a line feed, which is dropped together with a carriage return before it. -/
def lines : Text → List Text
  | [] => []
  | '\n' :: s => [] :: lines s
  | c :: s =>
    if c = '\r' ∧ s.head? = some '\n' then lines s
    else match lines s with
      | [] => [[c]]
      | l :: ls => (c :: l) :: ls

/-- `str::split_ascii_whitespace`, with the token being read. -/
def tokensFrom (token : Text) : Text → List Text
  | [] => if token = [] then [] else [token]
  | c :: s =>
    if isAsciiWs c then (if token = [] then tokensFrom [] s else token :: tokensFrom [] s)
    else tokensFrom (token ++ [c]) s

/-- `str::split_ascii_whitespace`. -/
def tokens (s : Text) : List Text := tokensFrom [] s

/-- parser.rs:2463: `!line.trim().starts_with('#') && !line.trim().is_empty()`. -/
def isRuleLine (line : Text) : Bool :=
  match line.dropWhile isWs with
  | [] => false
  | c :: _ => c != '#'

/-! ## Numbers -/

/-- The value of a hexadecimal digit (`char::to_digit(16)`). -/
def hexVal (c : Char) : Option Nat :=
  if '0'.toNat ≤ c.toNat ∧ c.toNat ≤ '9'.toNat then some (c.toNat - '0'.toNat)
  else if 'a'.toNat ≤ c.toNat ∧ c.toNat ≤ 'f'.toNat then some (c.toNat - 'a'.toNat + 10)
  else if 'A'.toNat ≤ c.toNat ∧ c.toNat ≤ 'F'.toNat then some (c.toNat - 'A'.toNat + 10)
  else none

/-- The number written with these digits after the digits of `acc`. -/
def hexFrom (acc : Nat) : Text → Option Nat
  | [] => some acc
  | c :: cs => match hexVal c with
    | none => none
    | some d => hexFrom (16 * acc + d) cs

/-- `u32::from_str_radix(s, 16)` for at most five characters (so without overflow): an optional `+`, then digits. -/
def hexNumber : Text → Option Nat
  | [] => none
  | '+' :: c :: cs => hexFrom 0 (c :: cs)
  | cs => hexFrom 0 cs

/-- `char::is_ascii_digit`. -/
def isDigit (c : Char) : Bool := '0'.toNat ≤ c.toNat && c.toNat ≤ '9'.toNat

/-- `char::is_ascii_alphabetic`. -/
def isAsciiAlpha (c : Char) : Bool :=
  ('a'.toNat ≤ c.toNat && c.toNat ≤ 'z'.toNat) || ('A'.toNat ≤ c.toNat && c.toNat ≤ 'Z'.toNat)

/-- The number written with these decimal digits after the digits of `acc`. -/
def decFrom (acc : Nat) : Text → Nat
  | [] => acc
  | c :: cs => decFrom (10 * acc + (c.toNat - '0'.toNat)) cs

/-- multipass/test.rs:165-172 and action.rs:230-237 `ascii_number`: digits, then `parse::<u8>`. -/
def asciiNumber (s : Text) : Option (Nat × Text) :=
  let digits := s.takeWhile isDigit
  if digits = [] ∨ decFrom 0 digits > 255 then none else some (decFrom 0 digits, s.dropWhile isDigit)

/-- `parse::<i32>`: an optional sign, then digits. -/
def parseInt (s : Text) : Option Int :=
  let nat (ds : Text) : Option Nat := if ds = [] ∨ !ds.all isDigit then none else some (decFrom 0 ds)
  match s with
  | '-' :: ds => match nat ds with
    | some n => if n ≤ 2 ^ 31 then some (-(n : Int)) else none
    | none => none
  | '+' :: ds => match nat ds with
    | some n => if n < 2 ^ 31 then some n else none
    | none => none
  | ds => match nat ds with
    | some n => if n < 2 ^ 31 then some n else none
    | none => none

/-! ## Escape sequences -/

/-- The character of a surrogate pair. -/
def pairChar (high low : Nat) : Char := Char.ofNat (0x10000 + (high - 0xd800) * 0x400 + (low - 0xdc00))

/-- `char::decode_utf16([high, low]).next()` for a surrogate `high`. -/
def decodePair (high low : Nat) : Option Char :=
  if high < 0xdc00 ∧ 0xdc00 ≤ low ∧ low < 0xe000 then some (pairChar high low) else none

/-- parser.rs:1132-1141: the second half of a surrogate pair. -/
def secondHalf (len high : Nat) : Text → Option (Char × Text)
  | '\\' :: 'x' :: s =>
    if len = 4 then
      match hexNumber (s.take 4) with
      | none => none
      | some low => (decodePair high low).map fun c => (c, s.drop 4)
    else none
  | _ => none

/-- parser.rs:1100-1149 `unescape_unicode`: the character and the remaining text. -/
def unescapeUnicode (len : Nat) (s : Text) : Option (Char × Text) :=
  if s.length < len then none
  else match hexNumber (s.take len) with
    | none => none
    | some v =>
      if v.isValidChar then some (Char.ofNat v, s.drop len)
      else if 0x10000 ≤ v then none
      else match secondHalf len v (s.drop len) with
        | some r => some r
        | none => some (Char.ofNat 0xfffd, s.drop len)

/-- parser.rs:1162-1169: the escapes of one letter. -/
def simpleEscape : Char → Option Char
  | 'f' => some '\x0c' | 'n' => some '\n' | 'r' => some '\r' | 't' => some '\t' | 's' => some ' ' | 'v' => some '\x0b'
  | 'e' => some '\x1b' | '\\' => some '\\'
  | _ => none

/-- parser.rs:1094-1098 `enum EscapingContext`. -/
inductive EscCtx where
  | default
  | matchPattern
  deriving Repr, DecidableEq

/-- parser.rs:1151-1182 `unescape`; every round reads at least one character, so a fuel of the length suffices. -/
def unescapeGo (ctx : EscCtx) : Nat → Text → Option Text
  | _, [] => some []
  | 0, _ => none
  | n + 1, c :: s =>
    if c ≠ '\\' then (unescapeGo ctx n s).map (c :: ·)
    else match s with
      | [] => none
      | e :: s =>
        match simpleEscape e with
        | some c => (unescapeGo ctx n s).map (c :: ·)
        | none =>
          if ctx = .matchPattern ∧ (e = '(' ∨ e = ')' ∨ e = ']') then (unescapeGo ctx n s).map fun t => '\\' :: e :: t
          else if e = 'x' then
            (unescapeUnicode 4 s).bind fun r => (unescapeGo ctx n r.2).map (r.1 :: ·)
          else if e = 'y' then
            (unescapeUnicode 5 s).bind fun r => (unescapeGo ctx n r.2).map (r.1 :: ·)
          else none

/-- parser.rs:1151-1182 `unescape`. -/
def unescape (ctx : EscCtx) (s : Text) : Option Text := unescapeGo ctx s.length s

end Louis
