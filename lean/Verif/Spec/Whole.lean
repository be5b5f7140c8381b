import Verif.Spec.SameLines
import Verif.Spec.Each

/-!
# Claims about the stages, stated of whole translators

Vocabulary for C07, C10 and C39 when they are stated of the lines of a table and of the traces of a compiled translator.
-/

namespace Louis

/-- The text that stage `i` of a translator reads: the input, or what the stage before it has written. -/
inductive StageText (input : Text) (tss : List (List Resolved)) : Nat → Text → Prop
  | first : StageText input tss 0 input
  | next {i ts} : tss[i]? = some ts → StageText input tss (i + 1) (ts.flatMap (·.output))

/-- The lines of the table say nothing about the character: no line defines it, it occurs neither as it is nor in lowercase in
anything that a line reads, and there are no `match` and no `context` lines. -/
structure NotMentioned (lower : Char → List Char) (defs : CharDefs) (d : Direction) (rules : List Anchored) (c : Char) : Prop where
  notDefined : ∀ r ∈ rules, (∀ dots, ¬ r.rule.Defines c dots) ∧ ∀ name b, r.rule ≠ .base name c b
  notRead : ∀ r ∈ rules, ∀ w, r.rule.reads defs d = some w → c ∉ w ∧ ∀ l, lower c = [l] → l ∉ w
  noMatch : ∀ r ∈ rules, ∀ pre chars post dots cons, r.rule ≠ .matchRule pre chars post dots cons
  noContext : ∀ r ∈ rules, ∀ test action cons, r.rule ≠ .pass .context test action cons

/-- The built-in cells for the characters of an escape, in dots (sic: `3` and `9` are the same). -/
def builtinCells : List (Char × Cell) :=
  [('0', [.d3, .d5, .d6]), ('1', [.d2]), ('2', [.d2, .d3]), ('3', [.d2, .d5]), ('4', [.d2, .d5, .d6]), ('5', [.d2, .d6]),
   ('6', [.d2, .d3, .d5]), ('7', [.d2, .d3, .d5, .d6]), ('8', [.d2, .d3, .d6]), ('9', [.d2, .d5]),
   ('a', [.d1]), ('b', [.d1, .d2]), ('c', [.d1, .d4]), ('d', [.d1, .d4, .d5]), ('e', [.d1, .d5]), ('f', [.d1, .d2, .d4]),
   ('\\', [.d1, .d2, .d5, .d6]), ('x', [.d1, .d3, .d4, .d6])]

/-- What a character is written as in an escape: the cells the table defines for it, or else the built-in ones. -/
def EscapedAs (defs : CharDefs) (x : Char) (cells : Text) : Prop :=
  defs.get x = some cells ∨ defs.get x = none ∧ ∃ cell, (x, cell) ∈ builtinCells ∧ cells = [cell.toUnicode]

/-- What an unknown character is written as: the cells of the last `undefined` line, or else `\x` and its code in hexadecimal
digits. -/
inductive WrittenUnknown (defs : CharDefs) (rules : List Anchored) (c : Char) : Text → Prop
  | line {pre r post cells} : rules = pre ++ r :: post → r.rule = .undefined cells →
      (∀ q ∈ post, ∀ cells, q.rule ≠ .undefined cells) → WrittenUnknown defs rules c cells.toText
  | escape {cellss} : (∀ r ∈ rules, ∀ cells, r.rule ≠ .undefined cells) →
      Each (EscapedAs defs) ('\\' :: 'x' :: Nat.toDigits 16 c.toNat) cellss → WrittenUnknown defs rules c cellss.flatten

end Louis
