import Verif.Model.RuleParser

/-!
# Pasting the text of included tables (C80)
-/

namespace Louis

/-- The line includes the table of this name (by C58 it consists of the word `include`, the name, and perhaps further words
that are not looked at). -/
def IsIncludeLine (line file : Text) : Prop := isRuleLine line = true ∧ parseLine line = some (.incl file)

/-- The lines of a text in which every line that includes a table is replaced by the lines of that table, in which the lines
that include a table are replaced in turn. -/
inductive Pasted (fs : Files) : List Text → List Text → Prop
  | done : Pasted fs [] []
  | keep (line : Text) (rest out : List Text) (h : ∀ file, ¬ IsIncludeLine line file) (more : Pasted fs rest out) :
      Pasted fs (line :: rest) (line :: out)
  | paste (line file path text : Text) (rest inner out : List Text) (h : IsIncludeLine line file) (hd : isDic file = false)
      (hf : fs.find file = some path) (hr : fs.read path = some text) (here : Pasted fs (lines text) inner)
      (more : Pasted fs rest out) : Pasted fs (line :: rest) (inner ++ out)

/-- The lines of the tables, one table after the other, with all the tables they include. -/
inductive PastedTables (fs : Files) : List Text → List Text → Prop
  | done : PastedTables fs [] []
  | table (file path text : Text) (files out outs : List Text) (hf : fs.find file = some path)
      (hr : fs.read path = some text) (here : Pasted fs (lines text) out) (more : PastedTables fs files outs) :
      PastedTables fs (file :: files) (out ++ outs)

/-- The text with these lines. -/
def textOf (ls : List Text) : Text := ls.flatMap (· ++ ['\n'])

end Louis
