import Verif.Model.Types

/-!
# Model of `src/parser/braille.rs`: dots and cells
-/

namespace Louis

/-- braille.rs:11-29 `enum BrailleDot`. -/
inductive Dot where
  | d0 | d1 | d2 | d3 | d4 | d5 | d6 | d7 | d8 | d9 | da | db | dc | dd | de | df
  deriving Repr, DecidableEq

/-- braille.rs:32-51 `to_hex`. -/
def Dot.toHex : Dot → Nat
  | .d0 => 0x0000 | .d1 => 0x0001 | .d2 => 0x0002 | .d3 => 0x0004 | .d4 => 0x0008 | .d5 => 0x0010 | .d6 => 0x0020
  | .d7 => 0x0040 | .d8 => 0x0080 | .d9 => 0x0100 | .da => 0x0200 | .db => 0x0400 | .dc => 0x0800 | .dd => 0x1000
  | .de => 0x2000 | .df => 0x4000

/-- braille.rs:54-80 `TryFrom<char> for BrailleDot`. -/
def Dot.ofChar : Char → Option Dot
  | '0' => some .d0 | '1' => some .d1 | '2' => some .d2 | '3' => some .d3 | '4' => some .d4 | '5' => some .d5
  | '6' => some .d6 | '7' => some .d7 | '8' => some .d8 | '9' => some .d9 | 'a' => some .da | 'b' => some .db
  | 'c' => some .dc | 'd' => some .dd | 'e' => some .de | 'f' => some .df
  | _ => none

/-- braille.rs:83 `struct BrailleChar(EnumSet<BrailleDot>)`: a set of dots, given by a list of its members. -/
abbrev Cell := List Dot

/-- braille.rs:92-103 `has_virtual_dots`. -/
def Dot.isVirtual : Dot → Bool
  | .d9 | .da | .db | .dc | .dd | .de | .df => true
  | _ => false

/-- braille.rs:105-117, the number passed to `char::from_u32`. -/
def Cell.code (c : Cell) : Nat :=
  (c.map Dot.toHex).foldl (· ||| ·) (if c.any Dot.isVirtual then 0xF0000 else 0x2800)

/-- braille.rs:105-117 `to_unicode`.  `char::from_u32(…).unwrap()` cannot panic: see `C31_conversion_cannot_fail`. -/
def Cell.toUnicode (c : Cell) : Char := Char.ofNat c.code

/-- braille.rs:145 `struct BrailleChars(Vec<BrailleChar>)`. -/
abbrev Cells := List Cell

/-- braille.rs:171-179 `Display for BrailleChars`, i.e. `dots.to_string()`. -/
def Cells.toText (cs : Cells) : Text := cs.map Cell.toUnicode

/-- `value.chars().map(BrailleDot::try_from).collect()`: all or nothing. -/
def dotsOf : Text → Option Cell
  | [] => some []
  | c :: cs => match Dot.ofChar c with
    | none => none
    | some d => (dotsOf cs).map (d :: ·)

/-- braille.rs:126-136 `TryFrom<&str> for BrailleChar`. -/
def Cell.parse (s : Text) : Option Cell := if s = [] then none else dotsOf s

/-- `str::split('-')`: always at least one piece. -/
def splitOn (sep : Char) : Text → List Text
  | [] => [[]]
  | c :: cs =>
    if c = sep then [] :: splitOn sep cs
    else match splitOn sep cs with
      | [] => [[c]]
      | p :: ps => (c :: p) :: ps

/-- Collecting options: all or nothing. -/
def allSome {α β : Type} (f : α → Option β) : List α → Option (List β)
  | [] => some []
  | a :: as => match f a with
    | none => none
    | some b => (allSome f as).map (b :: ·)

/-- braille.rs:163-169 `TryFrom<&str> for BrailleChars`. -/
def Cells.parse (s : Text) : Option Cells := allSome Cell.parse (splitOn '-' s)

/-- parser.rs `enum Braille`. -/
inductive Braille where
  | implicit
  | explicit (cells : Cells)
  deriving Repr, DecidableEq

end Louis
