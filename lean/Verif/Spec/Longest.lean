import Verif.Spec.Explain

/-!
# C69: the lines of a table that could be used at a place

Written in terms of the lines of the table and the text.
-/

namespace Louis

/-- How many conditions on the neighbouring characters the opcode of a line states. -/
def Rule.bounds : Rule → Nat
  | .text .always _ _ _ _ => 0
  | .text .partword _ _ _ _ => 1
  | .text _ _ _ _ _ => 2
  | .contraction _ | .joinword _ _ | .lowword _ _ _ | .begnum _ _ _ | .midnum _ _ _ => 2
  | .endnum _ _ _ => 1
  | _ => 0

/-- How many conditions a line states: those of its opcode, and those on classes that have members. -/
def Rule.conditions (classes : CharClasses) (r : Rule) : Nat :=
  r.bounds + (r.withs.filter fun w => (classes.get (CharClass.ofName w.name)).isSome).length

/-- Lines for pieces of text; in backward translation also those for single characters. -/
def Rule.IsText (d : Direction) : Rule → Prop
  | .text _ _ _ _ _ | .contraction _ | .syllable _ _ | .largesign _ _ | .joinword _ _ | .lowword _ _ _
  | .begnum _ _ _ | .midnum _ _ _ | .endnum _ _ _ => True
  | .charDef _ _ _ _ | .decpoint _ _ | .base _ _ _ => d = .backward
  | _ => False

/-- Lines for single characters. -/
def Rule.IsChar : Rule → Bool
  | .charDef _ _ _ _ | .decpoint _ _ | .base _ _ _ => true
  | _ => false

/-- `match` and `context` lines. -/
def Rule.IsPattern : Rule → Bool
  | .matchRule _ _ _ _ _ | .pass .context _ _ _ => true
  | _ => false

/-- Lines that are used before or after a word only. -/
def Rule.IsPunct : Rule → Bool
  | .prepunc _ _ _ | .postpunc _ _ _ => true
  | _ => false

/-- The line can be used before the text `rest`, after the character `before`: the text begins with what it reads, and its
conditions hold. -/
def Rule.Fits (ctx : TableCtx) (d : Direction) (cs : Case) (before : Option Char) (rest : Text) (r : Rule) (read : Text) : Prop :=
  ∃ chars dots written consumed tail, rest = consumed ++ tail ∧ Spells cs.lower consumed read ∧
    Reading.dir d chars dots read written ∧
    r.Says (ctx.neighbours d) ctx.defs before tail.head? chars dots ∧
    ∀ w ∈ r.withs, ctx.classes.get (CharClass.ofName w.name) ≠ none →
      w.Here (ctx.neighbours d) before tail.head?

/-- The line is one for this text, whatever stands before and after it. -/
def Rule.IsFor (ctx : TableCtx) (d : Direction) (r : Rule) (read : Text) : Prop :=
  ∃ chars dots written, Reading.dir d chars dots read written ∧
    ((∃ cl before after, r.Says cl ctx.defs before after chars dots) ∨
      d = .backward ∧ ∃ cells : Cells, r.backSign? = some cells ∧ chars = [] ∧ dots = cells.toText)

/-- No other line of the table is for the same text with as many conditions. -/
def Alone (ctx : TableCtx) (d : Direction) (rules : List Anchored) (r : Anchored) (read : Text) : Prop :=
  ∀ r' ∈ rules, r' ≠ r → r'.rule.conditions ctx.classes = r.rule.conditions ctx.classes → ¬ r'.rule.IsFor ctx d read

end Louis
