import Verif.Model.Braille
import Verif.Model.MatchPattern
import Verif.Model.Multipass

/-!
# Model of the rules of a table (`src/parser.rs`) and of `src/translator/table.rs`

`Rule` is the abstract syntax the parser produces.  Constructors of `enum Rule` with the same fields and the same treatment
are grouped under a kind (`CharKind`, `TextKind`, `PassKind`); opcodes that the translator accepts and ignores are `other`.
-/

namespace Louis

/-- parser.rs:40-97 `struct Constraints`, a set of `nofor`, `noback`, `nocross`. -/
structure RuleCons where
  nofor : Bool
  noback : Bool
  nocross : Bool
  deriving Repr, DecidableEq

/-- The empty set of constraints. -/
def RuleCons.none : RuleCons := ⟨false, false, false⟩

/-- parser.rs:125-128 `enum WithClass`. -/
inductive WithClass where
  | before (cls : Text)
  | after (cls : Text)
  deriving Repr, DecidableEq

/-- The character-definition opcodes `space` … `math` and `hyphen` (parser.rs:362-417, 587-591). -/
inductive CharKind where
  | space | punctuation | digit | letter | lowercase | uppercase | litdigit | sign | math | hyphen
  deriving Repr, DecidableEq

/-- The opcodes with characters, (possibly implicit) dots, constraints and class conditions (parser.rs:610-615, 634-639, 656-703). -/
inductive TextKind where
  | always | word | sufword | prfword | begword | begmidword | midword | midendword | endword | partword
  deriving Repr, DecidableEq

/-- The opcodes with a multipass test and action (parser.rs:758-782). -/
inductive PassKind where
  | correct | context | pass2 | pass3 | pass4
  deriving Repr, DecidableEq

/-- parser.rs:337-795 `enum Rule`. -/
inductive Rule where
  | incl (file : Text)
  | includeHyphenation (path : Text)
  | undefined (dots : Cells)
  | display (c : Char) (dots : Cell) (cons : RuleCons)
  | charDef (k : CharKind) (c : Char) (dots : Cells) (cons : RuleCons)
  | base (name : Text) (derived base : Char)
  | decpoint (c : Char) (dots : Cells)
  | capsletter (dots : Cells) (cons : RuleCons)
  | begcapsword (dots : Cells) (cons : RuleCons)
  | endcapsword (dots : Cells) (cons : RuleCons)
  | capsmodechars (chars : Text)
  | begcaps (dots : Cells)
  | endcaps (dots : Cells)
  | begcapsphrase (dots : Cells)
  | endcapsphrase (dots : Cells) (before : Bool)
  | lencapsphrase (number : Int)
  | letsign (dots : Cells)
  | noletsign (chars : Text)
  | noletsignbefore (chars : Text)
  | noletsignafter (chars : Text)
  | nocontractsign (dots : Cells) (cons : RuleCons)
  | numsign (dots : Cells)
  | nonumsign (dots : Cells) (cons : RuleCons)
  | numericnocontchars (chars : Text)
  | numericmodechars (chars : Text)
  | seqdelimiter (chars : Text)
  | seqbeforechars (chars : Text)
  | seqafterchars (chars : Text)
  | emphclass (name : Text)
  | begemph (name : Text) (dots : Cells) (cons : RuleCons)
  | endemph (name : Text) (dots : Cells) (cons : RuleCons)
  | noemphchars (name chars : Text)
  | emphletter (name : Text) (dots : Cells)
  | begemphword (name : Text) (dots : Cells)
  | endemphword (name : Text) (dots : Cells)
  | emphmodechars (name chars : Text)
  | begemphphrase (name : Text) (dots : Cells)
  | endemphphrase (name : Text) (dots : Cells) (before : Bool)
  | lenemphphrase (name : Text) (number : Int)
  | begcomp (dots : Cells) (cons : RuleCons)
  | endcomp (dots : Cells) (cons : RuleCons)
  | compbrl (chars : Text) (cons : RuleCons)
  | comp6 (chars : Text) (dots : Braille)
  | text (k : TextKind) (chars : Text) (dots : Braille) (cons : RuleCons) (withs : List WithClass)
  | largesign (chars : Text) (dots : Cells)
  | syllable (chars : Text) (dots : Braille)
  | joinword (chars : Text) (dots : Cells)
  | lowword (chars : Text) (dots : Cells) (cons : RuleCons)
  | contraction (chars : Text)
  | prepunc (chars : Text) (dots : Cells) (cons : RuleCons)
  | postpunc (chars : Text) (dots : Cells) (cons : RuleCons)
  | begnum (chars : Text) (dots : Cells) (cons : RuleCons)
  | midnum (chars : Text) (dots : Cells) (cons : RuleCons)
  | endnum (chars : Text) (dots : Braille) (cons : RuleCons)
  | swapcd (name chars : Text) (dots : List Cells)
  | swapdd (name : Text) (dots : Cells) (replacement : List Cells)
  | swapcc (name chars replacement : Text)
  | attribute (name chars : Text)
  /-- `class NAME CHARS` (parser.rs:523-526): parsed, but no code of the translator looks at it -/
  | cls (name chars : Text)
  | pass (k : PassKind) (test : List TestInstr) (action : List ActionInstr) (cons : RuleCons)
  | matchRule (pre : List Pattern) (chars : Text) (post : List Pattern) (dots : Braille) (cons : RuleCons)
  /-- `multind`, `grouping`, `modeletter`, `begmodeword`, `midendnumericmodechars`, `begmodephrase`, `endmodephrase`,
  `lenmodephrase`, `seqafterpattern`, `seqafterexpression`, `capsnocont`, `nocont`, `replace`, `repeated`, `repword`,
  `rependword`, `exactdots`, `joinnum`, `literal`: no code of the translator looks at their operands -/
  | other (cons : RuleCons)

/-- parser.rs:2408-2413 `struct AnchoredRule`; the file and line are represented by a number. -/
structure Anchored where
  rule : Rule
  id : Nat

/-- The constraints stored in a rule, those of `directions` (parser.rs:924-985); the empty set if it has none. -/
def Rule.cons : Rule → RuleCons
  | .display _ _ c | .charDef _ _ _ c | .capsletter _ c | .begcapsword _ c | .endcapsword _ c | .nocontractsign _ c
  | .nonumsign _ c | .begemph _ _ c | .endemph _ _ c | .begcomp _ c | .endcomp _ c | .compbrl _ c | .text _ _ _ c _
  | .lowword _ _ c | .prepunc _ _ c | .postpunc _ _ c | .begnum _ _ c | .midnum _ _ c | .endnum _ _ c
  | .pass _ _ _ c | .matchRule _ _ _ _ c | .other c => c
  | _ => RuleCons.none

/-- parser.rs:925-985 `directions`, parser.rs:919-921 `is_direction`. -/
def Rule.isDirection (r : Rule) (d : Direction) : Bool :=
  if r.cons.nofor then d == .backward
  else if r.cons.noback then d == .forward
  else true

/-- parser.rs:994-996 `is_nocross`: only the opcodes listed there can be nocross. -/
def Rule.isNocross : Rule → Bool
  | .text _ _ _ c _ | .lowword _ _ c | .prepunc _ _ c | .postpunc _ _ c | .begnum _ _ c | .midnum _ _ c
  | .endnum _ _ c => c.nocross
  | _ => false

/-- parser.rs:1047-1070 `precedence`. -/
def Rule.prec : Rule → Prec
  | .text .word _ _ _ _ | .text .begword _ _ _ _ | .text .sufword _ _ _ _ | .text .midword _ _ _ _
  | .text .midendword _ _ _ _ | .text .endword _ _ _ _ | .text .begmidword _ _ _ _ | .text .always _ _ _ _
  | .joinword _ _ | .begnum _ _ _ | .midnum _ _ _ | .endnum _ _ _ => .translation
  | .capsletter _ _ | .begcapsword _ _ | .endcapsword _ _ | .numsign _ | .nonumsign _ _ => .indicator
  | _ => .default

/-- The rule as the origin of a translation (see `Origin`). -/
def Anchored.origin (r : Anchored) : Origin :=
  ⟨match r.rule with | .prepunc _ _ _ => .prepunc | .postpunc _ _ _ => .postpunc | _ => .other, r.id⟩

/-- parser.rs:1079-1086 `impl Display for Braille`. -/
def Braille.toText : Braille → Text
  | .implicit => ['=']
  | .explicit cells => cells.toText

/-! ## Character definitions (translator.rs:42-92) -/

/-- translator.rs:43 `struct CharacterDefinition(HashMap<char, String>)`, as the list of insertions; the first binding
counts (`entry(from).or_insert`, translator.rs:50-58). -/
abbrev CharDefs := List (Char × Text)

/-- translator.rs:50-58 `insert`. -/
def CharDefs.insert (defs : CharDefs) (c : Char) (dots : Text) : CharDefs := defs ++ [(c, dots)]

/-- translator.rs:60-62 `get`. -/
def CharDefs.get (defs : CharDefs) (c : Char) : Option Text := (defs.find? (·.1 == c)).map (·.2)

/-- translator.rs:64-73 `resolve_implicit_dots`. -/
def CharDefs.resolve (defs : CharDefs) : Text → Except CompileErr Text
  | [] => .ok []
  | c :: cs =>
    match defs.get c with
    | none => .error (.implicitCharacterNotDefined c)
    | some d => match defs.resolve cs with
      | .error e => .error e
      | .ok ds => .ok (d ++ ds)

/-- translator.rs:85-91 `braille_to_unicode`. -/
def CharDefs.braille (defs : CharDefs) (dots : Braille) (chars : Text) : Except CompileErr Text :=
  match dots with
  | .implicit => defs.resolve chars
  | .explicit cells => .ok cells.toText

/-! ## The context of a table (table.rs) -/

/-- table.rs:10-15 `struct TableContext`. -/
structure TableCtx where
  defs : CharDefs
  classes : CharClasses
  dots : CharClasses
  swaps : SwapClasses

/-- character_class.rs:74-81 `insert_dots`: only single cells. -/
def CharClasses.insertDots (cs : CharClasses) (k : CharClass) (dots : Cells) : CharClasses :=
  match dots with
  | [cell] => cs.insert k cell.toUnicode
  | _ => cs

/-- character_class.rs:83-99 `insert_associated_dot`. -/
def CharClasses.insertAssociated (cs : CharClasses) (k : CharClass) (c : Char) (defs : CharDefs) : CharClasses :=
  match defs.get c with
  | some [cell] => cs.insert k cell
  | _ => cs

/-- table.rs:56-136: the classes a character definition puts its character and its cell in. -/
def CharKind.classes : CharKind → List CharClass
  | .space => [.space]
  | .punctuation => [.punctuation]
  | .digit => [.digit]
  | .litdigit => [.litdigit]
  | .letter => [.letter]
  | .lowercase => [.lowercase, .letter]
  | .uppercase => [.uppercase, .letter]
  | .sign => [.sign]
  | .math => [.math]
  | .hyphen => [.punctuation]

/-- table.rs:54-149, the body of the first loop, for one rule.  `alpha` is `char::is_alphabetic`. -/
def TableCtx.define (alpha : Char → Bool) (ctx : TableCtx) : Rule → TableCtx
  | .charDef k c dots _ => { ctx with
      defs := ctx.defs.insert c dots.toText
      classes := k.classes.foldl (fun cs k => cs.insert k c) ctx.classes
      dots := k.classes.foldl (fun cs k => cs.insertDots k dots) ctx.dots }
  | .decpoint c dots => { ctx with
      defs := ctx.defs.insert c dots.toText
      classes := ctx.classes.insert .punctuation c
      dots := ctx.dots.insertDots .punctuation dots }
  | .text .always chars dots _ _ =>
      if chars.all alpha then { ctx with dots := dots.toText.foldl (fun cs c => cs.insert .letter c) ctx.dots } else ctx
  | _ => ctx

/-- The characters of a class rule: members `k`, and their cells in the cell class `kd` (table.rs:178-271). -/
def TableCtx.addMembers (ctx : TableCtx) (k kd : CharClass) (chars : Text) : TableCtx := { ctx with
  classes := chars.foldl (fun cs c => cs.insert k c) ctx.classes
  dots := chars.foldl (fun cs c => cs.insertAssociated kd c ctx.defs) ctx.dots }

/-- table.rs:151-283, the body of the second loop, for one rule. -/
def TableCtx.derive (ctx : TableCtx) : Rule → TableCtx
  | .base name derived base =>
    match ctx.defs.get base with
    | none => ctx
    | some dots => { ctx with
        defs := ctx.defs.insert derived dots
        classes := (if name = "uppercase".toList ∨ name = "lowercase".toList then [CharClass.ofName name, .letter]
          else [CharClass.ofName name]).foldl (fun cs k => cs.insert k derived) ctx.classes }
  | .attribute name chars => ctx.addMembers (CharClass.ofName name) (CharClass.ofName name) chars
  | .seqdelimiter chars => ctx.addMembers .seqdelimiter .seqdelimiter chars
  | .seqbeforechars chars => ctx.addMembers .seqbeforechars .seqbeforechars chars
  | .seqafterchars chars => ctx.addMembers .seqafterchars .seqafterchars chars
  | .swapcc name chars replacement =>
    { ctx.addMembers (CharClass.ofName name) .seqafterchars chars with
      swaps := ctx.swaps.insert name (chars.zip (replacement.map fun c => [c])) }
  | .swapcd name chars dots =>
    { ctx.addMembers (CharClass.ofName name) .seqafterchars chars with
      swaps := ctx.swaps.insert name (chars.zip (dots.map Cells.toText)) }
  | .swapdd name dots replacement =>
    { ctx.addMembers (CharClass.ofName name) .seqafterchars dots.toText with
      swaps := ctx.swaps.insert name ((dots.map Cell.toUnicode).zip (replacement.map Cells.toText)) }
  | _ => ctx

/-- table.rs:48-290 `TableContext::compile`; with the default features it cannot fail. -/
def TableCtx.compile (alpha : Char → Bool) (rules : List Anchored) : TableCtx :=
  let ctx := rules.foldl (fun ctx r => ctx.define alpha r.rule) ⟨[], [], [], []⟩
  rules.foldl (fun ctx r => ctx.derive r.rule) ctx

end Louis
