import Verif.Model.Regexp

/-! The size of a pattern, as its author would count it: one for each character, class, anchor and so on, and a repeated
part as often as it must be repeated (C78). -/

namespace Louis.Regexp

/-- The size of a pattern. -/
def size : Regexp → Nat
  | .concat l r => size l + size r
  | .either l r => size l + size r + 2
  | .optional r => size r + 1
  | .zeroOrMore r => size r + 2
  | .oneOrMore r => size r + 1
  | .repeatExactly n r => n * size r
  | .repeatAtLeast n r => (n + 1) * size r + 2
  | .repeatAtLeastAtMost min max r => (min + (max - min)) * size r + 2
  | .capture r => size r + 2
  | .group r => size r
  | .string s | .notString s | .ciString s => s.length
  | .empty => 0
  | _ => 1

end Louis.Regexp
