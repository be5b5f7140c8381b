import Verif.Spec.Whole

/-!
# What a translator can write at all

Vocabulary for C83: the characters that lines give to be written.
-/

namespace Louis

/-- A braille cell: the character for a set of dots. -/
def IsCell (c : Char) : Prop := ∃ cell : Cell, c = cell.toUnicode

/-- The cells written in a dots operand; `=` is written without any. -/
def Braille.written : Braille → Text
  | .implicit => []
  | .explicit cells => cells.toText

/-- The text written in an action operand. -/
def ActionInstr.written : ActionInstr → Text
  | .string s | .dots s => s
  | _ => []

/-- The characters a line gives to be written from the main stage on: the cells of its dots operand, the strings and dots of its
actions, the replacements of its class.  (The action of a `correct` line is written before the main stage.) -/
def Rule.written : Rule → Text
  | .undefined dots | .charDef _ _ dots _ | .decpoint _ dots | .capsletter dots _ | .begcapsword dots _ | .endcapsword dots _
  | .begcaps dots | .endcaps dots | .begcapsphrase dots | .endcapsphrase dots _ | .letsign dots | .nocontractsign dots _
  | .numsign dots | .nonumsign dots _ | .begemph _ dots _ | .endemph _ dots _ | .emphletter _ dots | .begemphword _ dots
  | .endemphword _ dots | .begemphphrase _ dots | .endemphphrase _ dots _ | .begcomp dots _ | .endcomp dots _ | .largesign _ dots
  | .joinword _ dots | .lowword _ dots _ | .prepunc _ dots _ | .postpunc _ dots _ | .begnum _ dots _ | .midnum _ dots _ => dots.toText
  | .comp6 _ dots | .text _ _ dots _ _ | .syllable _ dots | .endnum _ dots _ | .matchRule _ _ _ dots _ => dots.written
  | .swapcd _ _ dots => dots.flatMap Cells.toText
  | .swapdd _ _ replacement => replacement.flatMap Cells.toText
  | .swapcc _ _ replacement => replacement
  | .pass .correct _ _ _ => []
  | .pass _ _ action _ => action.flatMap ActionInstr.written
  | _ => []

/-- The character is one that a line gives, or one of the cells built into the program for writing unknown characters. -/
def Given (rules : List Anchored) (c : Char) : Prop :=
  (∃ r ∈ rules, c ∈ r.rule.written) ∨ ∃ x cell, (x, cell) ∈ builtinCells ∧ c = cell.toUnicode

/-- No `context` line used in forward translation copies text: neither with `*` nor through a class. -/
def NoCopying (rules : List Anchored) : Prop :=
  ∀ r ∈ rules, r.rule.AllowedIn .forward → ∀ test action cons, r.rule = .pass .context test action cons →
    ∀ a ∈ action, a ≠ .replace ∧ ∀ name, a ≠ .swapClass name

/-- No line has text to be written: no strings of characters other than cells in the actions of `context`, `pass2`, `pass3` and
`pass4` lines, no characters other than cells as replacements in `swapcc` lines. -/
structure NoTexts (rules : List Anchored) : Prop where
  strings : ∀ r ∈ rules, ∀ k test action cons, r.rule = .pass k test action cons → k ≠ .correct → ∀ s, .string s ∈ action →
    ∀ c ∈ s, IsCell c
  swaps : ∀ r ∈ rules, ∀ name chars replacement, r.rule = .swapcc name chars replacement → ∀ c ∈ replacement, IsCell c

end Louis
