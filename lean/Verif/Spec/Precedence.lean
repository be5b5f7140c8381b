import Verif.Spec.Longest

/-!
# C14: which of two lines for the same text counts

Written in terms of the lines of the table.
-/

namespace Louis

/-- The opcodes whose lines replace an earlier line for the same text under the same conditions. -/
def Rule.Overrides : Rule → Prop
  | .text .always _ _ _ _ | .text .word _ _ _ _ | .text .begword _ _ _ _ | .text .midword _ _ _ _ | .text .endword _ _ _ _
  | .text .midendword _ _ _ _ | .text .begmidword _ _ _ _ | .text .sufword _ _ _ _ => True
  | .joinword _ _ | .begnum _ _ _ | .midnum _ _ _ | .endnum _ _ _ => True
  | _ => False

/-- The two lines have the same opcode, the same conditions on the neighbouring characters, and agree on `nocross`. -/
inductive Rule.SameKind : Rule → Rule → Prop where
  | text {k chars chars' b b' withs} {cons cons' : RuleCons} : cons.nocross = cons'.nocross →
    SameKind (.text k chars b cons withs) (.text k chars' b' cons' withs)
  | contraction {chars chars'} : SameKind (.contraction chars) (.contraction chars')
  | syllable {chars chars' b b'} : SameKind (.syllable chars b) (.syllable chars' b')
  | largesign {chars chars' b b'} : SameKind (.largesign chars b) (.largesign chars' b')
  | joinword {chars chars' b b'} : SameKind (.joinword chars b) (.joinword chars' b')
  | lowword {chars chars' b b'} {cons cons' : RuleCons} : cons.nocross = cons'.nocross →
    SameKind (.lowword chars b cons) (.lowword chars' b' cons')
  | begnum {chars chars' b b'} {cons cons' : RuleCons} : cons.nocross = cons'.nocross →
    SameKind (.begnum chars b cons) (.begnum chars' b' cons')
  | midnum {chars chars' b b'} {cons cons' : RuleCons} : cons.nocross = cons'.nocross →
    SameKind (.midnum chars b cons) (.midnum chars' b' cons')
  | endnum {chars chars' b b'} {cons cons' : RuleCons} : cons.nocross = cons'.nocross →
    SameKind (.endnum chars b cons) (.endnum chars' b' cons')

end Louis
