import Verif.Model.Table
import Verif.Model.Types

/-!
# C75: words are translated by themselves

Written in terms of the lines of the table and of the classes of characters only.
-/

namespace Louis

/-- The character is a space and nothing else. -/
structure Blank (classes : CharClasses) (b : Char) : Prop where
  space : classes.has .space b = true
  only : ∀ k, classes.has k b = true → k = .space

/-- The line is about what happens within words, where `b` stands between words: it neither mentions `b` nor looks beyond the
next character, and it does not distinguish between the beginning of the text and the beginning of a word. -/
def Rule.WithinWords (b : Char) : Rule → Prop
  | .text _ chars _ _ _ | .syllable chars _ | .largesign chars _ | .joinword chars _ | .lowword chars _ _ | .contraction chars
  | .prepunc chars _ _ | .postpunc chars _ _ | .begnum chars _ _ | .midnum chars _ _ | .endnum chars _ _ | .comp6 chars _
  | .numericmodechars chars | .numericnocontchars chars | .capsmodechars chars => b ∉ chars
  | .decpoint c _ => c ≠ b
  | .matchRule _ _ _ _ _ | .pass _ _ _ _ | .compbrl _ _ | .letsign _ | .begcaps _ | .begcapsphrase _ => False
  | _ => True

end Louis
