import Verif.Spec.RoundTrip

/-!
# C85, C86: uncontracted braille with capitals and numbers

Written in terms of the lines of the table only.
-/

namespace Louis

/-- The name of the class that the line puts characters into. -/
def Rule.fills : Rule → Option Text
  | .attribute name _ | .swapcc name _ _ | .swapcd name _ _ | .swapdd name _ _ => some name
  | _ => none

/-- The line makes the character an upper-case letter. -/
inductive Rule.Raises : Rule → Char → Prop where
  | upper {c cells cons} : Rule.Raises (.charDef .uppercase c cells cons) c
  | base {c b} : Rule.Raises (.base "uppercase".toList c b) c

/-- The line makes the character a digit. -/
def Rule.IsDigit (r : Rule) (c : Char) : Prop := ∃ cells cons, r = .charDef .litdigit c cells cons

/-- The braille of a character: what its line says, or what the line of its base character says. -/
inductive Spelt (rules : List Anchored) : Char → Text → Prop where
  | direct {r c dots} : r ∈ rules → r.rule.Defines c dots → Spelt rules c dots
  | derived {r q name c b dots} : r ∈ rules → r.rule = .base name c b → q ∈ rules → q.rule.Defines b dots → Spelt rules c dots

/-- A table for uncontracted braille with a sign for capital letters, and perhaps one for numbers: it defines characters, says
which ones are the capitals of others, and what the signs are. -/
structure LetterByLetter (sign : Char) (num : Option Char) (rules : List Anchored) : Prop where
  lines : ∀ r ∈ rules,
    (r.rule.Quiet = true ∧ (∀ name, r.rule.fills = some name → name ≠ "uppercase".toList ∧ name ≠ "letter".toList) ∧
      (num ≠ none → ∀ cs, r.rule ≠ .numericmodechars cs)) ∨
    (∃ k c cells cons, r.rule = .charDef k c cells cons ∧ (num = none → k ≠ .litdigit)) ∨
    (∃ c b, r.rule = .base "uppercase".toList c b) ∨
    (∃ cells cons, r.rule = .capsletter cells cons ∧ cells.toText = [sign]) ∨
    ∃ n cells, num = some n ∧ r.rule = .numsign cells ∧ cells.toText = [n]
  allowed : ∀ r ∈ rules, ∀ d, r.rule.AllowedIn d
  signed : ∃ r ∈ rules, ∃ cells cons, r.rule = .capsletter cells cons
  numbered : num ≠ none → ∃ r ∈ rules, ∃ cells, r.rule = .numsign cells
  one : ∀ c dots dots', Spelt rules c dots → Spelt rules c dots' → dots = dots'
  based : ∀ r ∈ rules, ∀ name c b, r.rule = .base name c b → ∃ q ∈ rules, ∃ dots, q.rule.Defines b dots

/-- The line defines the character as a digit. -/
def Rule.DigitLine (r : Rule) (c : Char) : Prop := ∃ k cells cons, r = .charDef k c cells cons ∧ (k = .digit ∨ k = .litdigit)

/-- The line defines the character as a letter. -/
def Rule.LetterLine (r : Rule) (c : Char) : Prop :=
  ∃ k cells cons, r = .charDef k c cells cons ∧ (k = .letter ∨ k = .lowercase ∨ k = .uppercase)

/-- The cells of the signs are used for nothing else. -/
structure SignsApart (sign : Char) (num : Option Char) (rules : List Anchored) : Prop extends LetterByLetter sign num rules where
  nonempty : ∀ r ∈ rules, ∀ c dots, r.rule.Defines c dots → dots ≠ []
  unsigned : ∀ s, s = sign ∨ num = some s → ∀ r ∈ rules, ∀ c dots, r.rule.Defines c dots → s ∉ dots
  distinct : num ≠ some sign

/-- The braille of such a table can be read back: the braille of no character begins with that of another one; the cells of the
signs are used for nothing else; no letter is also a digit; and a character is defined above its capitals. -/
structure ReadableBack (sign : Char) (num : Option Char) (rules : List Anchored) : Prop extends SignsApart sign num rules where
  unambiguous : ∀ r ∈ rules, ∀ r' ∈ rules, ∀ c dots c' dots', r.rule.Defines c dots → r'.rule.Defines c' dots' →
    dots <+: dots' → c = c'
  apart : num ≠ none → ∀ r ∈ rules, ∀ r' ∈ rules, ∀ c, r.rule.DigitLine c → ¬ r'.rule.LetterLine c
  above : ∀ pre r post, rules = pre ++ r :: post → ∀ name c b, r.rule = .base name c b → ∃ q ∈ pre, ∃ dots, q.rule.Defines b dots

/-- The braille of such a table can be read back although the digits are written with the cells of letters: the braille of no
character begins with that of another one, unless one is a digit and the other one a letter with the same cells, which is defined
above the digit; every digit has one cell, and no letter is also a digit. -/
structure ReadableNumbers (sign num : Char) (rules : List Anchored) : Prop extends SignsApart sign (some num) rules where
  unambiguous : ∀ r ∈ rules, ∀ r' ∈ rules, ∀ c dots c' dots', r.rule.Defines c dots → r'.rule.Defines c' dots' → dots <+: dots' →
    c = c' ∨ dots = dots' ∧ (r.rule.DigitLine c ∧ r'.rule.LetterLine c' ∨ r.rule.LetterLine c ∧ r'.rule.DigitLine c')
  lettersFirst : ∀ pre r post, rules = pre ++ r :: post → ∀ q ∈ post, ∀ c c' dots, r.rule.DigitLine c → r.rule.Defines c dots →
    q.rule.LetterLine c' → ¬ q.rule.Defines c' dots
  single : ∀ r ∈ rules, ∀ c dots, r.rule.DigitLine c → r.rule.Defines c dots → dots.length = 1
  written : ∀ r ∈ rules, ∀ c, r.rule.DigitLine c → ∃ q ∈ rules, q.rule.IsDigit c
  apart : ∀ r ∈ rules, ∀ r' ∈ rules, ∀ c, r.rule.DigitLine c → ¬ r'.rule.LetterLine c
  small : ∀ r ∈ rules, ∀ q ∈ rules, ∀ name c b, r.rule = .base name c b → ¬ q.rule.DigitLine c ∧ ¬ q.rule.DigitLine b
  marked : ∀ r ∈ rules, r.rule.fills ≠ some "digit".toList
  above : ∀ pre r post, rules = pre ++ r :: post → ∀ name c b, r.rule = .base name c b → ∃ q ∈ pre, ∃ dots, q.rule.Defines b dots

/-- A line defines a letter by this cell alone. -/
def LetterCell (rules : List Anchored) (x : Char) : Prop := ∃ r ∈ rules, ∃ c, r.rule.LetterLine c ∧ r.rule.Defines c [x]

/-- A line defines a digit by this cell alone. -/
def CellOfDigit (rules : List Anchored) (x : Char) : Prop := ∃ r ∈ rules, ∃ c, r.rule.DigitLine c ∧ r.rule.Defines c [x]

/-- Numbers are set apart in the text: the character before a number does not end with the cell of a letter, and the one after
it, unless it is a capital, does not begin with the cell of a digit. -/
def NumbersApart (rules : List Anchored) (text : Text) : Prop :=
  ∀ pre c c' post, text = pre ++ c :: c' :: post →
    ((∃ r ∈ rules, r.rule.IsDigit c') → (¬ ∃ r ∈ rules, r.rule.IsDigit c) →
      ∀ dots x, Spelt rules c (dots ++ [x]) → ¬ LetterCell rules x) ∧
    ((∃ r ∈ rules, r.rule.IsDigit c) → (¬ ∃ r ∈ rules, r.rule.IsDigit c') → (¬ ∃ r ∈ rules, r.rule.Raises c') →
      ∀ x dots, Spelt rules c' (x :: dots) → ¬ CellOfDigit rules x)

/-- The braille of a text, character by character: the sign for numbers before every digit that does not follow a digit
(`after`), the sign for capital letters before every upper-case letter. -/
def spelledOut (sign : Char) (num : Option Char) (upper digit : Char → Bool) (code : Char → Text) : Bool → Text → Text
  | _, [] => []
  | after, c :: rest =>
    (if digit c && !after then num.toList else []) ++ (if upper c then [sign] else []) ++ code c ++
      spelledOut sign num upper digit code (digit c) rest

/-- `low` is `c` as a small letter: the character that is defined as the braille of `c`. -/
def SmallFor (rules : List Anchored) (c low : Char) : Prop :=
  ∃ dots, Spelt rules c dots ∧ ∃ r ∈ rules, r.rule.Defines low dots

end Louis
