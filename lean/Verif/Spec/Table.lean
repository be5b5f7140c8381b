import Verif.Model.Pipeline

/-!
# Specification vocabulary for tables, positions and the table search

Only the abstract syntax of rules (`Rule`), texts and spans are used here.
-/

namespace Louis

/-- A rule may be used in a direction: `nofor` rules not for forward, `noback` rules not for backward translation (a rule
marked with both is used backward: the code looks at `nofor` first). -/
def Rule.AllowedIn (r : Rule) : Direction → Prop
  | .forward => r.cons.nofor = false
  | .backward => r.cons.nofor = true ∨ r.cons.noback = false

/-- The character definition a rule makes by itself: its character and its dots. -/
def Rule.Defines (r : Rule) (c : Char) (dots : Text) : Prop :=
  (∃ k cells cons, r = .charDef k c cells cons ∧ dots = cells.toText) ∨ ∃ cells, r = .decpoint c cells ∧ dots = cells.toText

/-- A rule that maps a character for display in a direction. -/
def Rule.Displays (r : Rule) (d : Direction) (src dst : Char) : Prop :=
  ∃ c cell cons, r = .display c cell cons ∧ r.AllowedIn d ∧
    match d with
    | .forward => src = cell.toUnicode ∧ dst = c
    | .backward => src = c ∧ dst = cell.toUnicode

/-- `word` is a maximal piece of `text` without spaces that contains position `pos`. -/
structure WordAt (space : Char → Bool) (text : Text) (pos start stop : Nat) : Prop where
  inside : start ≤ pos ∧ pos < stop ∧ stop ≤ text.length
  noSpace : ∀ i, start ≤ i → i < stop → ∀ c, text[i]? = some c → space c = false
  maximalLeft : start = 0 ∨ ∃ c, text[start - 1]? = some c ∧ space c = true
  maximalRight : stop = text.length ∨ ∃ c, text[stop]? = some c ∧ space c = true

/-- `t` occurs in `text` at `pos`. -/
def OccursAt (t text : Text) (pos : Nat) : Prop := pos < text.length ∧ ∃ post, text.drop pos = t ++ post

/-- `t` is `s` without the white space at both ends. -/
structure Trimmed (ws : Char → Bool) (s t : Text) : Prop where
  split : ∃ a b, s = a ++ t ++ b ∧ (∀ c ∈ a, ws c = true) ∧ ∀ c ∈ b, ws c = true
  head : ∀ c, t.head? = some c → ws c = false
  last : ∀ c, t.getLast? = some c → ws c = false

/-- A line declares `key: value` as metadata. -/
structure Declares (ws : Char → Bool) (line : Text) (key value : Text) : Prop where
  line : ∃ k v, line = '#' :: '+' :: k ++ ':' :: v ∧ ':' ∉ k ∧ Trimmed ws k key ∧ Trimmed ws v value
  keyChars : key ≠ [] ∧ ∀ c ∈ key, c.isAlphanum = true
  valueChars : value ≠ [] ∧ ∀ c ∈ value, 33 ≤ c.toNat ∧ c.toNat ≤ 126

end Louis
