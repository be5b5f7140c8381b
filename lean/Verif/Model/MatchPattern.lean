import Verif.Model.Types

/-!
# Model of `src/translator/match_pattern.rs` (the `match` opcode)
-/

namespace Louis

open Regexp (Compiled Regexp)

/-- match_rule.rs `enum Side`. -/
inductive Side where
  | pre
  | post
  deriving Repr, DecidableEq

/-- match_rule.rs `enum Pattern`; hash sets are lists. -/
inductive Pattern where
  | empty
  | characters (s : Text)
  | boundary (side : Side)
  | any
  | set (cs : List Char)
  | attributes (as : List Attr)
  | attributesOrBoundary (as : List Attr) (side : Side)
  | group (ps : List Pattern)
  | negate (p : Pattern)
  | optional (p : Pattern)
  | zeroOrMore (p : Pattern)
  | oneOrMore (p : Pattern)
  | either (l r : List Pattern)
  deriving Repr

/-- match_pattern.rs:14-19 `boundary_anchor`. -/
def boundaryAnchor : Side → Regexp
  | .pre => .startAnchor
  | .post => .endAnchor

/-- match_pattern.rs:72-92 `from_attributes`; `none` is `unreachable!()`. -/
def matchAttributes (ctx : CharClasses) : List Attr → Option (List Char)
  | [] => some []
  | .cls k :: as => (matchAttributes ctx as).map ((ctx.get k).getD [] ++ ·)
  | .boundary :: _ => none
  | .byOrder _ :: _ => none
  | .any :: as => matchAttributes ctx as

mutual
/-- match_pattern.rs:22-55 `from_pattern`; `none` is a panic. -/
def fromPattern (ctx : CharClasses) : Pattern → Option Regexp
  | .empty => some .empty
  | .characters s => some (.string s)
  | .boundary side => some (boundaryAnchor side)
  | .any => some .any
  | .set cs => some (.cls cs)
  | .attributes as => (matchAttributes ctx as).map .cls
  | .attributesOrBoundary as side => (matchAttributes ctx as).map fun cs => .either (.cls cs) (boundaryAnchor side)
  | .group ps => (fromPatterns ctx ps).map .group
  | .negate p => (fromPattern ctx p).bind Regexp.negate
  | .optional p => (fromPattern ctx p).map .optional
  | .zeroOrMore p => (fromPattern ctx p).map .zeroOrMore
  | .oneOrMore p => (fromPattern ctx p).map .oneOrMore
  | .either l r => (fromPatterns ctx l).bind fun l => (fromPatterns ctx r).map fun r => .either l r
/-- match_pattern.rs:57-70 `from_patterns`; an empty list is `todo!()`. -/
def fromPatterns (ctx : CharClasses) : List Pattern → Option Regexp
  | [] => none
  | p :: ps => (fromPattern ctx p).bind fun r => fromPatternsRest ctx r ps
/-- match_pattern.rs:63-66, the loop over the remaining patterns. -/
def fromPatternsRest (ctx : CharClasses) (acc : Regexp) : List Pattern → Option Regexp
  | [] => some acc
  | p :: ps => (fromPattern ctx p).bind fun r => fromPatternsRest ctx (.concat acc r) ps
end

/-- match_pattern.rs:103-118 `from_match_rule`. -/
def fromMatchRule (ctx : CharClasses) (pre : List Pattern) (chars : Text) (post : List Pattern) : Option Regexp :=
  (fromPatterns ctx pre).bind fun a => (fromPatterns ctx post).map fun b =>
    .concat (.concat a (.capture (.ciString chars))) b

/-- match_pattern.rs:133-152 `MatchPatternsBuilder::insert`: the compiled pattern it pushes. -/
def compileMatch (ctx : CharClasses) (pre : List Pattern) (chars : Text) (post : List Pattern) (to : Text)
    (origin : Origin) : Option (Compiled Translation) :=
  (fromMatchRule ctx pre chars post).map fun r => Regexp.compile r (.resolved (Resolved.new chars to 0 .main (some origin)))

end Louis
