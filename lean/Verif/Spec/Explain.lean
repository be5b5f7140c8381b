import Verif.Spec.Trie
import Verif.Spec.Table
import Verif.Spec.Rules
import Verif.Model.Pipeline

/-!
# What it means that a rule of the table explains a piece of the translation

Written in terms of the rules of the table, the text, and the pieces written so far.  Nothing here mentions tries, regular
expressions or candidates.
-/

namespace Louis

/-- The character is a space or a punctuation character; the border of the text counts as a space. -/
def AtEdge (cl : CharClasses) : Option Char → Prop
  | none => True
  | some c => cl.has .space c = true ∨ cl.has .punctuation c = true

/-- There is a character, and it belongs to the class. -/
def IsIn (cl : CharClasses) (k : CharClass) : Option Char → Prop
  | none => False
  | some c => cl.has k c = true

/-- Where a rule with this opcode may be used, by the character before and the character after. -/
def TextKind.Here (cl : CharClasses) (k : TextKind) (before after : Option Char) : Prop :=
  match k with
  | .always => True
  | .word => AtEdge cl before ∧ AtEdge cl after
  | .begword => AtEdge cl before ∧ IsIn cl .letter after
  | .midword => IsIn cl .letter before ∧ IsIn cl .letter after
  | .endword => IsIn cl .letter before ∧ AtEdge cl after
  | .partword => IsIn cl .letter before ∨ IsIn cl .letter after
  | .midendword => IsIn cl .letter before ∧ (IsIn cl .letter after ∨ AtEdge cl after)
  | .begmidword => (AtEdge cl before ∨ IsIn cl .letter before) ∧ IsIn cl .letter after
  | .prfword => (AtEdge cl before ∨ IsIn cl .letter before) ∧ AtEdge cl after
  | .sufword => AtEdge cl before ∧ (AtEdge cl after ∨ IsIn cl .letter after)

/-- A condition `before CLASS`, `after CLASS`: the neighbouring character is in the class (the border counts as a space). -/
def WithClass.Here (cl : CharClasses) (before after : Option Char) : WithClass → Prop
  | .before name => NeighbourIn cl [CharClass.ofName name] after
  | .after name => NeighbourIn cl [CharClass.ofName name] before

/-- The name of the class in a condition. -/
def WithClass.name : WithClass → Text
  | .before n => n
  | .after n => n

/-- The braille of the characters according to the character definitions, in order. -/
inductive SpelledOut (defs : CharDefs) : Text → Text → Prop where
  | nil : SpelledOut defs [] []
  | cons {c dots cs rest} : defs.get c = some dots → SpelledOut defs cs rest → SpelledOut defs (c :: cs) (dots ++ rest)

/-- The braille of a rule: what it says, or (`=`) that of its characters. -/
inductive BrailleOf (defs : CharDefs) (chars : Text) : Braille → Text → Prop where
  | explicit (cells : Cells) : BrailleOf defs chars (.explicit cells) cells.toText
  | implicit {dots : Text} : SpelledOut defs chars dots → BrailleOf defs chars .implicit dots

/-- Where the text rules of a table other than the ten kinds of `TextKind` may be used, and their braille. -/
inductive Rule.Says (cl : CharClasses) (defs : CharDefs) (before after : Option Char) : Rule → Text → Text → Prop where
  | text {k chars b cons withs dots} : BrailleOf defs chars b dots → k.Here cl before after →
    Rule.Says cl defs before after (.text k chars b cons withs) chars dots
  | contraction {chars dots} : SpelledOut defs chars dots → AtEdge cl before → AtEdge cl after →
    Rule.Says cl defs before after (.contraction chars) chars dots
  | syllable {chars b dots} : BrailleOf defs chars b dots → Rule.Says cl defs before after (.syllable chars b) chars dots
  | largesign {chars} {cells : Cells} : Rule.Says cl defs before after (.largesign chars cells) chars cells.toText
  | joinword {chars} {cells : Cells} : AtEdge cl before → AtEdge cl after →
    Rule.Says cl defs before after (.joinword chars cells) chars cells.toText
  | lowword {chars cons} {cells : Cells} : AtEdge cl before → AtEdge cl after →
    Rule.Says cl defs before after (.lowword chars cells cons) chars cells.toText
  | begnum {chars cons} {cells : Cells} : AtEdge cl before → IsIn cl .digit after →
    Rule.Says cl defs before after (.begnum chars cells cons) chars cells.toText
  | midnum {chars cons} {cells : Cells} : IsIn cl .digit before → IsIn cl .digit after →
    Rule.Says cl defs before after (.midnum chars cells cons) chars cells.toText
  | endnum {chars b cons dots} : BrailleOf defs chars b dots → IsIn cl .digit before →
    Rule.Says cl defs before after (.endnum chars b cons) chars dots
  | prepunc {chars cons} {cells : Cells} : Rule.Says cl defs before after (.prepunc chars cells cons) chars cells.toText
  | postpunc {chars cons} {cells : Cells} : Rule.Says cl defs before after (.postpunc chars cells cons) chars cells.toText
  | comp6 {chars b dots} : BrailleOf defs chars b dots → Rule.Says cl defs before after (.comp6 chars b) chars dots
  | charDef {k c cons} {cells : Cells} : Rule.Says cl defs before after (.charDef k c cells cons) [c] cells.toText
  | decpoint {c} {cells : Cells} : Rule.Says cl defs before after (.decpoint c cells) [c] cells.toText
  | base {name derived c dots} : defs.get c = some dots → Rule.Says cl defs before after (.base name derived c) [derived] dots

/-- The conditions on classes a rule is written with. -/
def Rule.withs : Rule → List WithClass
  | .text _ _ _ _ withs => withs
  | _ => []

/-- The signs that are registered for backward translation. -/
def Rule.backSign? : Rule → Option Cells
  | .numsign dots | .nonumsign dots _ | .capsletter dots _ | .begcapsword dots _ | .endcapsword dots _ => some dots
  | _ => none

/-- The classes the conditions on neighbouring characters refer to: those of characters, or of cells. -/
def TableCtx.neighbours (ctx : TableCtx) : Direction → CharClasses
  | .forward => ctx.classes
  | .backward => ctx.dots

/-- Which of the characters and the braille of a rule are read, and which are written. -/
def Reading.dir (d : Direction) (chars dots read written : Text) : Prop :=
  match d with
  | .forward => read = chars ∧ written = dots
  | .backward => read = dots ∧ written = chars

/-- How much of the text the pieces stand for. -/
def coveredBy (done : List Resolved) : Nat := (done.flatMap (·.input)).length

/-- In backward translation a piece may be written in capitals, or with a capital first letter. -/
def MaybeCapital (cs : Case) (d : Direction) (written out : Text) : Prop :=
  out = written ∨ d = .backward ∧ (out = cs.upperStr written ∨
    out = match written with
      | [] => []
      | c :: rest => cs.upperChar c ++ rest)

end Louis
