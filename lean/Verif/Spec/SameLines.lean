import Verif.Spec.Pipeline
import Verif.Spec.Trie

/-!
# C76: a text is translated by the lines for the words that occur in it

When do two tables have the same lines, as far as a text is concerned?  Written in terms of the lines of the tables only.
-/

namespace Louis

/-- The line does nothing but tell how one piece of text is translated. -/
def Rule.onlyTranslates : Rule → Bool
  | .text _ _ _ _ _ | .syllable _ _ | .largesign _ _ | .joinword _ _ | .lowword _ _ _ | .begnum _ _ _ | .endnum _ _ _
  | .comp6 _ _ => true
  | _ => false

/-- The characters whose translation the line tells. -/
def Rule.characters : Rule → Option Text
  | .text _ chars _ _ _ | .syllable chars _ | .largesign chars _ | .joinword chars _ | .lowword chars _ _ | .contraction chars
  | .prepunc chars _ _ | .postpunc chars _ _ | .begnum chars _ _ | .midnum chars _ _ | .endnum chars _ _ | .comp6 chars _ =>
    some chars
  | _ => none

/-- The cells that the line gives; `=` stands for the cells of the characters. -/
def Rule.givenCells (defs : CharDefs) : Rule → Option Text
  | .text _ chars dots _ _ | .syllable chars dots | .endnum chars dots _ | .comp6 chars dots =>
    match defs.braille dots chars with
    | .ok cells => some cells
    | .error _ => none
  | .contraction chars =>
    match defs.resolve chars with
    | .ok cells => some cells
    | .error _ => none
  | .largesign _ dots | .joinword _ dots | .lowword _ dots _ | .prepunc _ dots _ | .postpunc _ dots _ | .begnum _ dots _
  | .midnum _ dots _ | .charDef _ _ dots _ | .decpoint _ dots | .numsign dots | .nonumsign dots _ | .capsletter dots _
  | .begcapsword dots _ | .endcapsword dots _ => some dots.toText
  | .base _ _ b => defs.get b
  | _ => none

/-- What the line reads: characters, or cells in backward direction. -/
def Rule.reads (defs : CharDefs) (d : Direction) (r : Rule) : Option Text :=
  match d with
  | .forward => r.characters
  | .backward => r.givenCells defs

/-- The line is an `always` line for letters, whose cells count as letters in the tests of the passes over cells and when capitals
and numbers are read back. -/
def Rule.letterCells (alpha : Char → Bool) : Rule → Bool
  | .text .always chars _ _ _ => chars.all alpha
  | _ => false

/-- The line is a rule of a pass over cells. -/
def Rule.cellPass : Rule → Bool
  | .pass .pass2 _ _ _ | .pass .pass3 _ _ _ | .pass .pass4 _ _ _ => true
  | _ => false

/-- The word is written in the text, at least in capitals. -/
def Occurs (lower : Char → List Char) (text word : Text) : Prop :=
  ∃ before consumed after, text = before ++ (consumed ++ after) ∧ Spells lower consumed word

/-- Two tables have the same lines in the same order, except for lines that only translate a piece of text. -/
structure SameOtherLines (alpha : Char → Bool) (d : Direction) (rules rules' : List Anchored) : Prop where
  others : rules.filter (!·.rule.onlyTranslates) = rules'.filter (!·.rule.onlyTranslates)
  /-- if it matters which cells are letters, then the lines that tell it are the same, too, in whatever order -/
  letters : (d = .forward ∧ ∀ r ∈ rules, r.rule.cellPass = false) ∨
    ∀ r : Anchored, r.rule.letterCells alpha = true → (r ∈ rules ↔ r ∈ rules')

/-- The lines of the two tables for any word of this text are the same in the same order. -/
def SameLinesFor (lower : Char → List Char) (defs : CharDefs) (d : Direction) (rules rules' : List Anchored) (text : Text) : Prop :=
  ∀ word, word ≠ [] → Occurs lower text word →
    rules.filter (fun r => r.rule.reads defs d == some word) = rules'.filter (fun r => r.rule.reads defs d == some word)

/-- A line may be left out: it only translates a piece of text, and it does not matter that its cells count as letters. -/
def MayBeLeftOut (alpha : Char → Bool) (d : Direction) (rules : List Anchored) (r : Anchored) : Prop :=
  r.rule.onlyTranslates = true ∧
    ((d = .forward ∧ ∀ x ∈ rules, x.rule.cellPass = false) ∨ r.rule.letterCells alpha = false)

/-- The text that the main stage of a translator gets. -/
def MainInput (cs : Case) (spans : List Span) (input : Text) (steps : List Transform) (text : Text) : Prop :=
  ∃ early p late, steps = early ++ .primary p :: late ∧ Pipeline.Translates cs spans input early text

end Louis
