import Verif.Spec.Output

/-!
# What a translator can write backward

Vocabulary for C84: the characters that lines give to be read back, and the cells that lines give to be written all the same.
-/

namespace Louis

/-- The characters a line gives to be read back: its characters, and what the action of a `correct` line writes. -/
def Rule.readBack : Rule → Text
  | .charDef _ c _ _ | .decpoint c _ | .base _ c _ => [c]
  | .text _ chars _ _ _ | .contraction chars | .syllable chars _ | .largesign chars _ | .joinword chars _ | .lowword chars _ _
  | .prepunc chars _ _ | .postpunc chars _ _ | .begnum chars _ _ | .midnum chars _ _ | .endnum chars _ _ | .comp6 chars _ => chars
  | .pass .correct _ action _ | .pass .context _ action _ => action.flatMap ActionInstr.written
  | _ => []

/-- The cells that a line gives to be written in backward translation as well: those of signs, of `undefined` lines and of `match`
lines, and the replacements of classes (which `correct` lines can ask for). -/
def Rule.cellsBack : Rule → Text
  | .undefined dots | .capsletter dots _ | .begcapsword dots _ | .endcapsword dots _
  | .begcaps dots | .endcaps dots | .begcapsphrase dots | .endcapsphrase dots _ | .letsign dots | .nocontractsign dots _
  | .numsign dots | .nonumsign dots _ | .begemph _ dots _ | .endemph _ dots _ | .emphletter _ dots | .begemphword _ dots
  | .endemphword _ dots | .begemphphrase _ dots | .endemphphrase _ dots _ | .begcomp dots _ | .endcomp dots _ => dots.toText
  | .matchRule _ _ _ dots _ => dots.written
  | .swapcd _ _ dots => dots.flatMap Cells.toText
  | .swapdd _ _ replacement => replacement.flatMap Cells.toText
  | .swapcc _ _ replacement => replacement
  | _ => []

/-- The cells of the characters are asked for: by a `match` line with `=`, or to write the escape of an unknown cell, because no line
says what to write for unknown characters. -/
def AsksCells (used : List Anchored) : Prop :=
  (∃ r ∈ used, ∃ pre chars post cons, r.rule = .matchRule pre chars post .implicit cons) ∨
    ∀ r ∈ used, ∀ dots, r.rule ≠ .undefined dots

/-- What is given to be written backward, but for capitals: the characters of a line; the cells of a sign, of an `undefined` or
`match` line, the replacements of a class; and, if they are asked for, the cells of the characters and those built in. -/
def ReadGiven (used : List Anchored) (c : Char) : Prop :=
  (∃ r ∈ used, c ∈ r.rule.readBack ∨ c ∈ r.rule.cellsBack) ∨ AsksCells used ∧ Given used c

/-- The character is in a text made of characters with the property, written in capitals or with a capital first letter. -/
def Capital (cs : Case) (P : Char → Prop) (c : Char) : Prop :=
  ∃ w : Text, (∀ x ∈ w, P x) ∧ (c ∈ cs.upperStr w ∨ ∃ x ∈ w, c ∈ cs.upperChar x)

/-- What is given to be written backward by the lines `used`, possibly in capitals. -/
def GivenBack (cs : Case) (used : List Anchored) (c : Char) : Prop := ReadGiven used c ∨ Capital cs (ReadGiven used) c

/-- No `context` line used in backward translation copies text: neither with `*` nor through a class. -/
def NoCopyingBack (rules : List Anchored) : Prop :=
  ∀ r ∈ rules, r.rule.AllowedIn .backward → ∀ test action cons, r.rule = .pass .context test action cons →
    ∀ a ∈ action, a ≠ .replace ∧ ∀ name, a ≠ .swapClass name

end Louis
