import Verif.Model.RuleParser

/-!
# What it means that two table texts differ in their layout only (C79)

Nothing here refers to how the parser works: a step of `Relayout` is an edit somebody makes in a text editor.
-/

namespace Louis

/-- The characters that separate the parts of a line: blank, tab, form feed and carriage return. -/
def IsBlank (c : Char) : Prop := c = ' ' ∨ c = '\t' ∨ c = '\x0c' ∨ c = '\r'

/-- What follows this text is at the start of a line. -/
def AtLineStart (before : Text) : Prop := before = [] ∨ ∃ b, before = b ++ ['\n']

/-- What is before this text is at the end of a line. -/
def AtLineEnd (after : Text) : Prop := after = [] ∨ ∃ b, after = '\n' :: b

/-- A line of white space, or one whose first other character is `#`. -/
def IsRemark (line : Text) : Prop :=
  '\n' ∉ line ∧ ∃ w r, line = w ++ r ∧ (∀ c ∈ w, isWs c = true) ∧ (r = [] ∨ ∃ r', r = '#' :: r')

/-- Edits of the layout of a table. -/
inductive Relayout : Text → Text → Prop
  /-- Other blanks between two parts of a line (or anywhere else where there are blanks already). -/
  | blanks (a w w' b : Text) (hw : w ≠ [] ∧ ∀ c ∈ w, IsBlank c) (hw' : w' ≠ [] ∧ ∀ c ∈ w', IsBlank c) :
      Relayout (a ++ w ++ b) (a ++ w' ++ b)
  /-- A line is indented. -/
  | indent (a w b : Text) (ha : AtLineStart a) (hw : ∀ c ∈ w, IsBlank c) : Relayout (a ++ b) (a ++ w ++ b)
  /-- Blanks at the end of a line; with a carriage return the line ends as on Windows. -/
  | trailing (a w b : Text) (hb : AtLineEnd b) (hw : ∀ c ∈ w, IsBlank c) : Relayout (a ++ b) (a ++ w ++ b)
  /-- A further blank line or comment. -/
  | remark (a line b : Text) (ha : AtLineStart a) (hl : IsRemark line) : Relayout (a ++ b) (a ++ line ++ '\n' :: b)
  /-- The last line is ended. -/
  | newline (a : Text) : Relayout a (a ++ ['\n'])
  | same (a : Text) : Relayout a a
  | back {a b : Text} (h : Relayout a b) : Relayout b a
  | more {a b c : Text} (h : Relayout a b) (h' : Relayout b c) : Relayout a c

/-- Two file systems with the same names and files, whose files differ in their layout only. -/
structure Files.Relayout (fs fs' : Files) : Prop where
  find : fs.find = fs'.find
  canon : fs.canon = fs'.canon
  read : ∀ path, (fs.read path = none ∧ fs'.read path = none) ∨
    ∃ text text', fs.read path = some text ∧ fs'.read path = some text' ∧ Louis.Relayout text text'

end Louis
