import Verif.Model.Trie

/-!
# Specification for the dictionary (C13, C14, C41)

When does a rule apply at a position?  Written without reference to tries, paths or transitions.
-/

namespace Louis

/-- `consumed` is spelled `word` once every character is lowercased (only characters with a one-character lowercase
count). -/
inductive Spells (lower : Char → List Char) : Text → Text → Prop where
  | nil : Spells lower [] []
  | cons {c l cs ls} : lower c = [l] → Spells lower cs ls → Spells lower (c :: cs) (l :: ls)

/-- The neighbouring character is in one of the classes; the border of the text counts as a space. -/
def NeighbourIn (ctx : CharClasses) (ks : List CharClass) : Option Char → Prop
  | some c => ∃ k ∈ ks, ctx.has k c
  | none => CharClass.space ∈ ks

/-- The rule applies to the text `input`, where `prev` is the character before it: the characters are spelled
at the beginning of the text and every boundary and class condition holds for the characters before and after. -/
def RuleMatches (ctx : CharClasses) (lower : Char → List Char) (d : Direction) (r : TrieRule) (input : Text)
    (prev : Option Char) : Prop :=
  ∃ consumed rest, input = consumed ++ rest ∧ Spells lower consumed (r.from d) ∧
    (∀ ks, r.before = some ks → NeighbourIn ctx ks prev) ∧
    (∀ ks, r.after = some ks → NeighbourIn ctx ks rest.head?) ∧
    (∀ k, ClassConstraint.start k ∈ r.constraints → NeighbourIn ctx [k] prev) ∧
    (∀ k, ClassConstraint.stop k ∈ r.constraints → NeighbourIn ctx [k] rest.head?)

/-- `t` is the translation of the rule: its characters, its replacement, its origin; weighted by the number of characters,
with or without the number of its conditions. -/
structure FromRule (d : Direction) (r : TrieRule) (t : Resolved) : Prop where
  input : t.input = r.from d
  output : t.output = r.to d
  length : t.length = (r.from d).length
  offset : t.offset = 0
  prec : t.prec = .default
  effects : t.effects = []
  origin : t.origin = some r.origin
  weight : t.weight = r.weight d ∨ t.weight = (r.from d).length

/-- The two rules have the same characters and the same conditions. -/
def SameConditions (ctx : CharClasses) (lower : Char → List Char) (d : Direction) (r r' : TrieRule) : Prop :=
  r.from d = r'.from d ∧ ∀ input prev, RuleMatches ctx lower d r input prev ↔ RuleMatches ctx lower d r' input prev

end Louis
