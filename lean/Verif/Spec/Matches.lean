import Verif.Spec.Passes
import Verif.Model.MatchPattern

/-!
# What a `match` line does, exactly

An interpreter for the patterns of `match` lines: for each pattern the ways of going on, the preferred one first.  The number
of exclamation marks in front of a pattern (those in front of groups around it included) decides how it is read.
-/

namespace Louis

/-- One character with the property. -/
def oneOf (has : Char → Bool) (p : Place) : List Place :=
  match p.rest with
  | [] => []
  | c :: _ => if has c then [p.after 1] else []

/-- As often as possible; each time at least one character has to be read. -/
def oftenOf (body : Place → List Place) : Nat → Place → List Place
  | 0, p => [p]
  | most + 1, p =>
    (body p).flatMap (fun q => if q.rest.length < p.rest.length then oftenOf body most q else []) ++ [p]

/-- At the beginning or end of the text. -/
def atBoundary (atStart : Bool) : Side → Place → Bool
  | .pre, p => atStart && p.read.isEmpty
  | .post, p => p.rest.isEmpty

mutual
/-- The ways of reading a pattern behind `n` exclamation marks, the preferred one first.  (Sic: `!` in front of a group or a
run of characters applies to every pattern or character of it; `!` in front of a class that includes the edge of the text
means another character or not at the edge; two of them turn `.` into nothing.) -/
def patternReadings (classes : CharClasses) (atStart : Bool) : Nat → Pattern → Place → List Place
  | n, .empty, p => if n % 2 = 0 then [p] else []
  | n, .characters s, p => if (if n = 0 then s.isPrefixOf p.rest else differs s p.rest) then [p.after s.length] else []
  | n, .boundary side, p => if atBoundary atStart side p = decide (n % 2 = 0) then [p] else []
  | n, .any, p => if n = 0 then oneOf (fun _ => true) p else if n % 2 = 0 then [p] else []
  | n, .set cs, p => oneOf (fun c => cs.contains c == decide (n = 0)) p
  | n, .attributes as, p => oneOf (fun c => ofAttrs classes as c == decide (n = 0)) p
  | n, .attributesOrBoundary as side, p =>
    oneOf (fun c => ofAttrs classes as c == decide (n = 0)) p ++ if atBoundary atStart side p = decide (n = 0) then [p] else []
  | n, .group ps, p => patternsReadings classes atStart n ps p
  | n, .negate q, p => patternReadings classes atStart (n + 1) q p
  | n, .optional q, p => patternReadings classes atStart n q p ++ [p]
  | n, .zeroOrMore q, p => oftenOf (patternReadings classes atStart n q) p.rest.length p
  | n, .oneOrMore q, p => (patternReadings classes atStart n q p).flatMap fun p' =>
      oftenOf (patternReadings classes atStart n q) p'.rest.length p'
  | n, .either l r, p => patternsReadings classes atStart n l p ++ patternsReadings classes atStart n r p
/-- One pattern after the other. -/
def patternsReadings (classes : CharClasses) (atStart : Bool) : Nat → List Pattern → Place → List Place
  | _, [], p => [p]
  | n, q :: qs, p => (patternReadings classes atStart n q p).flatMap (patternsReadings classes atStart n qs)
end

/-- The text starts with characters whose lowercase is `s`. -/
def spelt (lower : Char → List Char) : Text → Text → Bool
  | [], _ => true
  | _ :: _, [] => false
  | e :: es, c :: cs => lower c == [e] && spelt lower es cs

/-- The ways a `match` line can read the text: what its first operand describes, its characters, and what its last operand
describes. -/
def matchReadings (classes : CharClasses) (lower : Char → List Char) (atStart : Bool) (pre : List Pattern) (chars : Text)
    (post : List Pattern) (input : Text) : List Place :=
  ((patternsReadings classes atStart 0 pre ⟨[], input, [], []⟩).flatMap fun p =>
    if spelt lower chars p.rest then [(p.opening.after chars.length).closing] else []).flatMap
  (patternsReadings classes atStart 0 post)

/-- What the line reads before, as, and after its characters: the preferred way. -/
def matchStretch (classes : CharClasses) (lower : Char → List Char) (atStart : Bool) (pre : List Pattern) (chars : Text)
    (post : List Pattern) (input : Text) : Option Extent :=
  (matchReadings classes lower atStart pre chars post input).head?.map fun p =>
    ⟨p.opened, p.closed.drop p.opened.length, p.read.drop p.closed.length⟩

mutual
/-- The pattern always reads at least one character. -/
def Pattern.advances : Nat → Pattern → Bool
  | _, .characters s => !s.isEmpty
  | n, .any => n == 0
  | _, .set _ | _, .attributes _ => true
  | n, .group ps => advancesAny n ps
  | n, .negate p => Pattern.advances (n + 1) p
  | n, .oneOrMore p => Pattern.advances n p
  | n, .either l r => advancesAny n l && advancesAny n r
  | _, _ => false
def advancesAny : Nat → List Pattern → Bool
  | _, [] => false
  | n, p :: ps => Pattern.advances n p || advancesAny n ps
end

mutual
/-- What is repeated by `*` or `+` always reads something. -/
def Pattern.PlainLoops : Nat → Pattern → Prop
  | n, .group ps => PlainLoopsAll n ps
  | n, .negate p => Pattern.PlainLoops (n + 1) p
  | n, .optional p => Pattern.PlainLoops n p
  | n, .zeroOrMore p | n, .oneOrMore p => Pattern.advances n p = true ∧ Pattern.PlainLoops n p
  | n, .either l r => PlainLoopsAll n l ∧ PlainLoopsAll n r
  | _, _ => True
def PlainLoopsAll : Nat → List Pattern → Prop
  | _, [] => True
  | n, p :: ps => Pattern.PlainLoops n p ∧ PlainLoopsAll n ps
end

end Louis
