import Verif.Conform.Base

/-! # The tests of src/translator/match_pattern.rs -/

namespace Louis.Conform.MatchTests

open Louis.Regexp (find compile)

/-- `Regexp::from_patterns(&patterns, &ctx).compile()`, then `find`. -/
def finds (ctx : CharClasses) (pattern : String) (inputs : List String) : Option (List (Option (Option Resolved))) :=
  match parseMatch .post (t pattern) with
  | .error _ => none
  | .ok ps => (fromPatterns ctx ps).map fun r => inputs.map fun i =>
      (find (compile r (Translation.resolved (Resolved.new [] [] 0 .main none))) asciiLower (t i) (fun _ => none)).toOption.map
        (·.map fun f => f.payload.resolve f.capture f.length f.offset)

def hit (n : Nat) : Option (Option Resolved) := some (some (Resolved.new [] [] n .main none))
def miss : Option (Option Resolved) := some none

/-- `find_pattern` -/
example : finds [] "abc" ["abc", "def"] = some [hit 3, miss] := by decide +kernel
/-- `find_either` -/
example : finds [] "a|b" ["a", "b", "c", "def"] = some [hit 1, hit 1, miss, miss] := by decide +kernel
/-- `find_attribute_digit` -/
example : finds [(.digit, '1'), (.digit, '2'), (.digit, '3')] "%[#]" ["1", "2", "3", "def"] = some [hit 1, hit 1, hit 1, miss] := by
  decide +kernel
/-- `find_attribute_uppercase` -/
example : finds [(.uppercase, 'A'), (.uppercase, 'B'), (.uppercase, 'C')] "%[u]" ["A", "C", "def"] = some [hit 1, hit 1, miss] := by
  decide +kernel
/-- `find_attribute_uppercase_punctuation_or_sign` -/
example : finds [(.uppercase, 'A'), (.uppercase, 'B'), (.uppercase, 'C'), (.punctuation, '.'), (.punctuation, ','), (.punctuation, '!'),
    (.sign, '%'), (.sign, '&'), (.sign, '/')] "%[.$u]" ["%", ".", "A", "def"] = some [hit 1, hit 1, hit 1, miss] := by decide +kernel
/-- `find_character_class` -/
example : finds [] "[abc]" ["a", "b", "c", "def"] = some [hit 1, hit 1, hit 1, miss] := by decide +kernel
/-- `find_character_class_one_or_more` -/
example : finds [] "[abc]+" ["a", "b", "c", "def"] = some [hit 1, hit 1, hit 1, miss] := by decide +kernel

def rule : Origin := ⟨.other, 0⟩

/-- `MatchPatternsBuilder::insert` for each of the rules, then `MatchPatterns::find`. -/
def matches' (ctx : CharClasses) (pre post : String) (rs : List (String × String)) (inputs : List (String × Bool)) :
    Option (List (Option (List Resolved))) :=
  match parseMatch .pre (t pre), parseMatch .post (t post) with
  | .ok pre, .ok post => (allSome (fun r : String × String => compileMatch ctx pre (t r.1) post (t r.2) rule) rs).map fun ps =>
      inputs.map fun i => (patternsFind ps asciiLower (t i.1) (fun _ => none) i.2).toOption
  | _, _ => none

def res (input output : String) (weight offset : Nat) : Resolved :=
  { Resolved.new (t input) (t output) weight .main (some rule) with offset }

/-- `find_match` -/
example : matches' [] "[abc]+" "[123]+" [("foo", "")] [("afoo1", true), ("bfoo2", true), ("cccfoo333", true), ("def", true)] =
    some [some [res "foo" "" 5 1], some [res "foo" "" 5 1], some [res "foo" "" 9 3], some []] := by decide +kernel
/-- `find_multiple_match` -/
example : matches' [] "[abc]+" "[1234567890]" [("foo", "FOO"), ("bar", "BAR")] [("aaafoo333", true), ("aaabar333", true), ("aaabaz333", true)] =
    some [some [res "foo" "FOO" 7 3], some [res "bar" "BAR" 7 3], some []] := by decide +kernel
/-- `find_match_with_pre_boundary` -/
example : matches' [] "^" "." [("a", "X")] [("ab", true), ("ab", false)] = some [some [res "a" "X" 2 0], some []] := by decide +kernel
/-- `find_match_with_pre_attribute_boundary` -/
example : matches' [(.uppercase, 'A'), (.uppercase, 'B'), (.uppercase, 'C')] "%[u^]" "." [("x", "X")]
    [("Axy", false), ("xy_", true), ("xy_", false)] = some [some [res "x" "X" 3 1], some [res "x" "X" 2 0], some []] := by decide +kernel

end Louis.Conform.MatchTests
