import Verif.Spec.Table

/-!
# C74: tables that can be read back

Written in terms of the lines of the table only.
-/

namespace Louis

/-- The line replaces `chars` by `dots`, perhaps only in some places. -/
inductive Rule.Code : Rule → Text → Text → Prop where
  | char {k c cons} {cells : Cells} : Rule.Code (.charDef k c cells cons) [c] cells.toText
  | decpoint {c} {cells : Cells} : Rule.Code (.decpoint c cells) [c] cells.toText
  | text {k chars cons withs} {cells : Cells} : Rule.Code (.text k chars (.explicit cells) cons withs) chars cells.toText
  | syllable {chars} {cells : Cells} : Rule.Code (.syllable chars (.explicit cells)) chars cells.toText
  | largesign {chars} {cells : Cells} : Rule.Code (.largesign chars cells) chars cells.toText
  | joinword {chars} {cells : Cells} : Rule.Code (.joinword chars cells) chars cells.toText
  | lowword {chars cons} {cells : Cells} : Rule.Code (.lowword chars cells cons) chars cells.toText
  | begnum {chars cons} {cells : Cells} : Rule.Code (.begnum chars cells cons) chars cells.toText
  | midnum {chars cons} {cells : Cells} : Rule.Code (.midnum chars cells cons) chars cells.toText
  | endnum {chars cons} {cells : Cells} : Rule.Code (.endnum chars (.explicit cells) cons) chars cells.toText

/-- The line is used wherever its text stands. -/
inductive Rule.Everywhere : Rule → Prop where
  | char {k c cells cons} : Rule.Everywhere (.charDef k c cells cons)
  | decpoint {c cells} : Rule.Everywhere (.decpoint c cells)
  | always {chars b cons} : Rule.Everywhere (.text .always chars b cons [])
  | syllable {chars b} : Rule.Everywhere (.syllable chars b)
  | largesign {chars cells} : Rule.Everywhere (.largesign chars cells)

/-- The line replaces nothing: it is about display, undefined characters, hyphenation, names of classes, or characters that
are special to signs. -/
def Rule.Quiet : Rule → Bool
  | .incl _ | .includeHyphenation _ | .undefined _ | .display _ _ _ | .capsmodechars _ | .lencapsphrase _ | .noletsign _
  | .noletsignbefore _ | .noletsignafter _ | .numericnocontchars _ | .numericmodechars _ | .seqdelimiter _ | .seqbeforechars _
  | .seqafterchars _ | .emphclass _ | .noemphchars _ _ | .emphmodechars _ _ | .lenemphphrase _ _ | .swapcd _ _ _ | .swapdd _ _ _
  | .swapcc _ _ _ | .attribute _ _ | .cls _ _ | .other _ => true
  | _ => false

/-- The table can be read back: its lines replace pieces of text by braille; what may be written can be read back anywhere; and
reading is unambiguous, because the braille of no line begins with that of another one. -/
structure Reversible (rules : List Anchored) : Prop where
  lines : ∀ r ∈ rules, r.rule.Quiet = true ∨ ∃ chars dots, r.rule.Code chars dots
  written : ∀ r ∈ rules, r.rule.AllowedIn .forward → ∀ chars dots, r.rule.Code chars dots →
    ∃ q ∈ rules, q.rule.AllowedIn .backward ∧ q.rule.Code chars dots ∧ q.rule.Everywhere
  nonempty : ∀ r ∈ rules, ∀ chars dots, r.rule.Code chars dots → dots ≠ []
  unambiguous : ∀ r ∈ rules, r.rule.AllowedIn .backward → ∀ r' ∈ rules, r'.rule.AllowedIn .backward →
    ∀ chars dots chars' dots', r.rule.Code chars dots → r'.rule.Code chars' dots' → dots <+: dots' → dots = dots' ∧ chars = chars'
  /-- sic: cells that are also characters with a `litdigit` line would count as numbers -/
  plain : ∀ r ∈ rules, r.rule.AllowedIn .backward → ∀ c cells cons, r.rule ≠ .charDef .litdigit c cells cons

end Louis
