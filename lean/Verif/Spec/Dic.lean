import Verif.Spec.Table
import Verif.Spec.Operand

/-!
# Specification of hyphenation files (`.dic`)

Read without the model's parser: which lines a hyphenation file may consist of, and the table they mean.
-/

namespace Louis

/-- The digit a character stands for. -/
def DigitChar (c : Char) (d : Nat) : Prop := ['0', '1', '2', '3', '4', '5', '6', '7', '8', '9'][d]? = some c

/-- A number as `usize` is written: decimal digits, perhaps after a `+`, below `2^64`. -/
def SizeSrc (s : Text) (n : Nat) : Prop :=
  ∃ ds, (s = ds ∨ s = '+' :: ds) ∧ ds ≠ [] ∧ DecValue ds n ∧ n < 2 ^ 64

/-- A pattern: letters with digits between them, before them and after them.  `vs` has one value per gap: the last digit
written in the gap, 0 if there is none.  (Any character that is no decimal digit is a letter.) -/
inductive PatternSrc : Text → Text → List Nat → Prop where
  /-- Nothing is left: the last gap has no digit. -/
  | done : PatternSrc [] [] [0]
  /-- The next character is a letter, without a digit in front of it. -/
  | letter {c s ls vs} : (∀ d, ¬ DigitChar c d) → PatternSrc s ls vs → PatternSrc (c :: s) (c :: ls) (0 :: vs)
  /-- A digit which is the last one in its gap: the end or a letter follows. -/
  | digit {c d s ls vs} : DigitChar c d → (∀ x, s.head? = some x → ∀ e, ¬ DigitChar x e) → PatternSrc s ls (0 :: vs) →
    PatternSrc (c :: s) ls (d :: vs)
  /-- A digit before another digit of the same gap: it does not count. -/
  | overridden {c d x e s ls vs} : DigitChar c d → DigitChar x e → PatternSrc (x :: s) ls vs → PatternSrc (c :: x :: s) ls vs

/-- The character without the distinction of upper and lower case, for ASCII letters. -/
def SameLetter (a b : Char) : Prop :=
  a = b ∨ (a.toNat + 32 = b.toNat ∧ 65 ≤ a.toNat ∧ a.toNat ≤ 90) ∨ (b.toNat + 32 = a.toNat ∧ 65 ≤ b.toNat ∧ b.toNat ≤ 90)

/-- The two texts are the same but for the case of ASCII letters. -/
inductive SameIgnoringCase : Text → Text → Prop where
  | nil : SameIgnoringCase [] []
  | cons {a b s t} : SameLetter a b → SameIgnoringCase s t → SameIgnoringCase (a :: s) (b :: t)

/-- What one line of a hyphenation file contributes. -/
inductive DicItem where
  | nothing
  | left (n : Nat)
  | right (n : Nat)
  | pattern (letters : Text) (values : List Nat)
  deriving Repr, DecidableEq

/-- What a line means, without the white space around it; `first` says that it is the first line of the file. -/
inductive DicLine (first : Bool) : Text → DicItem → Prop where
  | blank : DicLine first [] .nothing
  | encoding {l} : first = true → SameIgnoringCase l "UTF-8".toList → DicLine first l .nothing
  | comment {c l} : c = '#' ∨ c = '%' → DicLine first (c :: l) .nothing
  | left {r t n} : Trimmed isWhitespace r t → SizeSrc t n → DicLine first ("LEFTHYPHENMIN".toList ++ r) (.left n)
  | right {r t n} : Trimmed isWhitespace r t → SizeSrc t n → DicLine first ("RIGHTHYPHENMIN".toList ++ r) (.right n)
  | pattern {l ls vs} : (first = true → ¬ SameIgnoringCase l "UTF-8".toList ∧ ¬ SameIgnoringCase l "ISO8859-1".toList) →
    l.head? ≠ some '#' → l.head? ≠ some '%' → (∀ r, l ≠ "LEFTHYPHENMIN".toList ++ r) →
    (∀ r, l ≠ "RIGHTHYPHENMIN".toList ++ r) → PatternSrc l ls vs → (∃ v ∈ vs, v ≠ 0) →
    DicLine first l (.pattern ls vs)

/-- The meaning of the lines of a file, line by line. -/
inductive DicLines : Bool → List Text → List DicItem → Prop where
  | nil {first} : DicLines first [] []
  | cons {first l t i ls is} : Trimmed isWhitespace l t → DicLine first t i → DicLines false ls is →
    DicLines first (l :: ls) (i :: is)

/-- The least number of characters before the first break: the last line that sets it; 1 if there is none. -/
def leftOf (items : List DicItem) : Nat :=
  ((items.filterMap fun | .left n => some n | _ => none).getLast?).getD 1

/-- The least number of characters after the last break. -/
def rightOf (items : List DicItem) : Nat :=
  ((items.filterMap fun | .right n => some n | _ => none).getLast?).getD 1

/-- The values of a pattern: those of the last line with the same letters. -/
def patternOf (items : List DicItem) (letters : Text) : Option (List Nat) :=
  (items.filterMap fun | .pattern ls vs => if ls = letters then some vs else none | _ => none).getLast?

end Louis
