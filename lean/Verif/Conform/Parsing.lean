import Verif.Conform.Base

/-! # The tests of src/parser.rs, src/parser/braille.rs, src/parser/match_rule.rs, src/parser/multipass/{test,action}.rs

The model does not tell the kinds of parse errors apart, so a test that expects a particular error is transcribed as a rejection. -/

namespace Louis.Conform.ParserTests

/-! ## parser.rs -/

def constraints (s : String) : Option RuleCons := (pConstraints (tokens (t s))).map (·.1)

/-- `nocross`, `nofor` and `constraints`: the model reads all three flags at once, in the same order. -/
example : constraints "nocross" = some ⟨false, false, true⟩ ∧ constraints " nofor " = some ⟨true, false, false⟩ ∧
    constraints "nofor nocross" = some ⟨true, false, true⟩ ∧ constraints "" = some ⟨false, false, false⟩ := by decide +kernel
/-- `unicode_surrogate_pairs` -/
example : unescape .default (t "\\x0041") = some (t "A") ∧ unescape .default (t "\\xD83C\\xDF11") = some (t "🌑") ∧
    unescape .default (t "\\xD83D") = some [Char.ofNat 0xFFFD] := by decide +kernel
/-- `nocontractsign_and_nonumsign_honor_direction` -/
example : (["noback nonumsign 156", "nofor nocontractsign 56", "nonumsign 156"].map fun l =>
      (rulesOf [l]).map fun rs => ((allowedRules rs .forward).length, (allowedRules rs .backward).length)) =
    [some (1, 0), some (0, 1), some (1, 1)] := by decide +kernel
/-- `test_fail_if_invalid_constraints` -/
example : Allowed.none.accepts ⟨false, false, false⟩ = true ∧ Allowed.none.accepts ⟨true, false, false⟩ = false ∧
    Allowed.none.accepts ⟨true, false, true⟩ = false ∧ Allowed.direction.accepts ⟨true, false, true⟩ = false := by decide +kernel
/-- `withclass` and `withclasses` -/
example : (pWithClasses (tokens (t "before foo "))).1 = [.before (t "foo")] ∧ (pWithClasses (tokens (t " after foo "))).1 = [.after (t "foo")] ∧
    (pWithClasses (tokens (t "before foo after bar"))).1 = [.before (t "foo"), .after (t "bar")] := by decide +kernel
/-- `opcode` -/
example : ((opcodeOf (t "include")).isSome ∧ (opcodeOf (t "always")).isSome) ∧ opcodeOf (t "h") = none ∧ opcodeOf (t "hello") = none := by
  decide +kernel
/-- `with_matches`: the words are read and dropped. -/
example : pWithMatches (tokens (t "empmatchafter match")) = [t "match"] ∧ pWithMatches (tokens (t "empmatchbefore match")) = [t "match"] ∧
    pWithMatches (tokens (t "match")) = [t "match"] ∧ pWithMatches (tokens (t "empmatchbefore empmatchafter match")) = [t "match"] := by
  decide +kernel
/-- `rule` -/
example : parseLine (t "include foo.ctb") = some (.incl (t "foo.ctb")) ∧ parseLine (t "include") = none ∧
    parseLine (t "Include foo.ctb") = none := by decide +kernel
/-- `display` -/
example : parseLine (t "display a 1") = some (.display 'a' [.d1] ⟨false, false, false⟩) := by decide +kernel
/-- `correct` -/
example : parseLine (t "noback correct \"a\" \"b\"") = some (.pass .correct [.string ['a']] [.string ['b']] ⟨false, true, false⟩) := by decide +kernel
/-- `swapdd` -/
example : parseLine (t "swapdd cancelcontraction 2a,23a,25a,256a,26a,35a,236a 1-12,12-1235,14-1235,145-1235,15-1345,24-1345,15-1235") =
    some (.swapdd (t "cancelcontraction")
      [[.d2, .da], [.d2, .d3, .da], [.d2, .d5, .da], [.d2, .d5, .d6, .da], [.d2, .d6, .da], [.d3, .d5, .da], [.d2, .d3, .d6, .da]]
      [[[.d1], [.d1, .d2]], [[.d1, .d2], [.d1, .d2, .d3, .d5]], [[.d1, .d4], [.d1, .d2, .d3, .d5]], [[.d1, .d4, .d5], [.d1, .d2, .d3, .d5]],
        [[.d1, .d5], [.d1, .d3, .d4, .d5]], [[.d2, .d4], [.d1, .d3, .d4, .d5]], [[.d1, .d5], [.d1, .d2, .d3, .d5]]]) := by decide +kernel
/-- `swapdd_rejects_multi_cell_in_search_operand` -/
example : parseLine (t "swapdd Aheadbrl 156,156-2,24,124 156,156-2,24,124") = none := by decide +kernel
/-- `grouping` -/
example : (parseLine (t "grouping brackets () 123,145")).isSome ∧ parseLine (t "grouping brackets () 123") = none := by decide +kernel

/-- A directory with the given files. -/
def dir (files : List (String × String)) : Files where
  find p := (files.find? (·.1.toList == p)).map (·.1.toList)
  canon p := some p
  read p := (files.find? (·.1.toList == p)).map (·.2.toList)

def expanded (files : List (String × String)) (file : String) : Except (List TableErr) Nat :=
  match tableExpanded (dir files) (t file) with
  | .ok rules => .ok rules.length
  | .error es => .error es

/-- `table_expanded_rejects_self_include` -/
example : expanded [("a.utb", "include a.utb\n")] "a.utb" = .error [.circular [t "a.utb", t "a.utb"]] := by decide +kernel
/-- `table_expanded_rejects_indirect_cycle` -/
example : expanded [("a.utb", "include b.utb\n"), ("b.utb", "include a.utb\n")] "a.utb" =
    .error [.circular [t "a.utb", t "b.utb", t "a.utb"]] := by decide +kernel
/-- `table_expanded_rejects_deep_include_chain`: `a` includes `aa`, which includes `aaa`, and so on. -/
example : (match tableExpanded ⟨some, some, fun p => some (t "include a" ++ p)⟩ (t "a") with
    | .error [.tooDeep] => true
    | _ => false) = true := by decide +kernel
/-- `table_expanded_allows_diamond_include` -/
example : expanded [("base.utb", "space \\s 0\n"), ("left.utb", "include base.utb\n"), ("right.utb", "include base.utb\n"),
    ("top.utb", "include left.utb\ninclude right.utb\n")] "top.utb" = .ok 2 := by decide +kernel

/-! ## parser/braille.rs -/

/-- `test_chars_to_dots` -/
example : Cell.parse (t "123") = some [.d1, .d2, .d3] ∧ Cell.parse (t "1a") = some [.d1, .da] ∧ Cell.parse (t "a") = some [.da] ∧
    Cell.parse (t "z") = none := by decide +kernel
/-- `test_braille_chars` -/
example : Cells.parse (t "1-1") = some [[.d1], [.d1]] ∧ Cells.parse (t "1-") = none ∧ Cells.parse (t "-1") = none ∧ Cells.parse (t "-") = none ∧
    Cells.parse (t "") = none := by decide +kernel
/-- `test_dots_to_unicode` -/
example : Cells.toText [[.d1, .d8]] = t "⢁" ∧ Cells.toText [[.d1, .d9]] = [Char.ofNat 0xf0101] := by decide +kernel

/-! ## parser/match_rule.rs -/

def pat (s : String) : Option (List Pattern) := got (parseMatch .pre (t s))
def post (s : String) : Option (List Pattern) := got (parseMatch .post (t s))

/-- `attribute` -/
example : pat "%[al.]" = some [.attributes [.cls .letter, .cls .lowercase, .cls .punctuation]] ∧ pat "%[a]" = some [.attributes [.cls .letter]] ∧
    pat "%[]" = none ∧ pat "%[a." = none ∧ pat "%[[]" = none ∧ pat "%a" = some [.attributes [.cls .letter]] := by decide +kernel
/-- `boundary` -/
example : pat "^" = some [.boundary .pre] ∧ post "$" = some [.boundary .post] ∧ pat "$" = some [.boundary .pre] ∧
    post "%[^]" = some [.boundary .post] ∧ pat "%[u^]" = some [.attributesOrBoundary [.cls .uppercase] .pre] := by decide +kernel
/-- `characters` -/
example : pat "abc" = some [.characters (t "abc")] := by decide +kernel
/-- `set` and `set_with_escape` and `set_with_invalid_escape` -/
example : pat "[abc]" = some [.set ['a', 'b', 'c']] ∧ pat "[abc" = none ∧ pat "[abc\\]]" = some [.set ['a', 'b', 'c', ']']] ∧
    pat "[)}\\]]" = some [.set [')', '}', ']']] ∧ pat "[\\a]]" = none := by decide +kernel
/-- `negate` -/
example : pat "!a" = some [.negate (.characters (t "a"))] ∧ pat "!!a" = none ∧ pat "!!a+" = none := by decide +kernel
/-- `group` -/
example : pat "(abc)" = some [.group [.characters (t "abc")]] ∧ pat "([abc])" = some [.group [.set ['a', 'b', 'c']]] ∧ pat "()" = none := by
  decide +kernel
/-- `either` -/
example : pat "a|b" = some [.either [.characters ['a']] [.characters ['b']]] ∧
    pat "a|b|c" = some [.either [.either [.characters ['a']] [.characters ['b']]] [.characters ['c']]] ∧
    pat "a+|[bc]?" = some [.either [.oneOrMore (.characters ['a'])] [.optional (.set ['b', 'c'])]] ∧
    pat "(a|b)" = some [.group [.either [.characters ['a']] [.characters ['b']]]] ∧ pat "|a" = none ∧ pat "a|" = none ∧
    pat "e%[^_.]|end" = some [.either [.characters ['e'], .attributesOrBoundary [.cls .space, .cls .punctuation] .pre] [.characters (t "end")]] := by
  decide +kernel
/-- `pattern` -/
example : pat "(abc)?" = some [.optional (.group [.characters (t "abc")])] ∧ pat "(abc)+" = some [.oneOrMore (.group [.characters (t "abc")])] ∧
    pat "(abc)*" = some [.zeroOrMore (.group [.characters (t "abc")])] ∧ pat "a**" = none ∧ pat "-" = some [.empty] ∧ pat ")" = none ∧
    pat "a)" = none := by decide +kernel

/-! ## parser/multipass/action.rs -/

def act (s : String) : Option ActionInstr := (opAction (t s)).map (·.1)

/-- `dots` -/
example : act "@123" = some (.dots (t "⠇")) ∧ act "@" = none ∧ act "@-" = none ∧ act "@1-2" = some (.dots (t "⠁⠂")) := by decide +kernel
/-- `string` -/
example : act "\"test\"" = some (.string (t "test")) ∧ act "\",_\"" = some (.string (t ",_")) ∧ act "\", \"" = some (.string (t ", ")) ∧
    act "\"-\\\"\"" = some (.string (t "-\"")) ∧ act "\".\\s\\\"\"" = some (.string (t ". \"")) := by decide +kernel
/-- `replace` and `ignore` -/
example : act "*" = some .replace ∧ act "?" = some .ignore := by decide +kernel
/-- `variable` -/
example : act "#1=42" = some (.assignment 1 42) ∧ act "#42=1" = some (.assignment 42 1) ∧ act "#5+" = some (.increment 5) ∧
    act "#5-" = some (.decrement 5) ∧ act "#1=" ≠ some (.assignment 1 42) ∧ act "#5<" = none ∧ act "#a=1" = none := by decide +kernel
/-- `swap_class` -/
example : act "%foo" = some (.swapClass (t "foo")) ∧ act "%hallöchen" ≠ some (.swapClass (t "hallöchen")) ∧ act "%京" = none ∧ act "%42" = none := by
  decide +kernel
/-- `action` -/
example : got (parseAction (t "?\"haha\"")) = some [.ignore, .string (t "haha")] := by decide +kernel
/-- `consume_all` -/
example : got (parseAction (t "@123#1=0_too much input")) = none := by decide +kernel

/-! ## parser/multipass/test.rs -/

def tst (s : String) : Option TestInstr := (got (opTest 100 (t s))).map (·.1)
def tsts (s : String) : Option (List TestInstr) := got (parseTest (t s))

/-- `ascii_number` -/
example : (["123", "1", "1 ", "1abc", " 1", "a1"].map fun s => (asciiNumber (t s)).map (·.1)) = [some 123, some 1, some 1, some 1, none, none] := by
  decide +kernel
/-- `dots` -/
example : tst "@123" = some (.dots (t "⠇")) ∧ tst "@" = none ∧ tst "@-" = none ∧ tst "@1-2" = some (.dots (t "⠁⠂")) := by decide +kernel
/-- `string` -/
example : tst "\"test\"" = some (.string (t "test")) ∧ tst "\",_\"" = some (.string (t ",_")) ∧ tst "\", \"" = some (.string (t ", ")) ∧
    tst "\"-\\\"\"" = some (.string (t "-\"")) ∧ tst "\".\\s\\\"\"" = some (.string (t ". \"")) := by decide +kernel
/-- `negate` -/
example : tst "!\"a\"" = some (.negate (.string (t "a"))) ∧ tst "!!\"a\"" = none ∧ tst "![$d]" = none := by decide +kernel
/-- `lookback` -/
example : (["_123", "_7", "_ ", "_abc", "_12abc", " _ "].map tst) =
    [some (.lookback 123), some (.lookback 7), some (.lookback 1), some (.lookback 1), some (.lookback 12), none] := by decide +kernel
/-- `attributes` -/
example : tst "$a" = some (.attributes [.any] none) ∧ tst "$ay" = some (.attributes [.any, .byOrder 3] none) ∧ tst "$" = none ∧ tst "$h" = none := by
  decide +kernel
/-- `class` and `class_with_quantifier` -/
example : (["%foo", "%3", "%", "% ", "%🐂", "%8", "%foo.", "%foo20", "%foo1-20", "%foo20-200", "%foo200-20"].map tst) =
    [some (.cls (t "foo") none), some (.cls (t "3") none), none, none, none, none, some (.cls (t "foo") (some .oneOrMore)),
      some (.cls (t "foo") (some (.number 20))), some (.cls (t "foo") (some (.range 1 20))), some (.cls (t "foo") (some (.range 20 200))), none] := by
  decide +kernel
/-- `quantifier` -/
example : (["$a ", "$a.", "$a3", "$a3-5", "$a1-", "$a1-a"].map tst) =
    [some (.attributes [.any] none), some (.attributes [.any] (some .oneOrMore)), some (.attributes [.any] (some (.number 3))),
      some (.attributes [.any] (some (.range 3 5))), none, none] := by decide +kernel
/-- `variable` -/
example : (["#1<2", "#1<=2", "#1=3", "#a=3", "#", "#3"].map tst) =
    [some (.varTest 1 .lt 2), some (.varTest 1 .ltEq 2), some (.varTest 1 .eq 3), none, none, none] ∧ tst "#3=a" ≠ some (.varTest 1 .eq 3) ∧
    tst "#3=" ≠ some (.varTest 1 .eq 3) := by decide +kernel
/-- `replacement` -/
example : tst "[$d]" = some (.replace [.attributes [.cls .digit] none]) ∧ tst "[%foo]" = some (.replace [.cls (t "foo") none]) ∧
    tst "[,,,]" = none := by decide +kernel
/-- `test` -/
example : tsts "$d[\"hello\"]%digitletter" =
    some [.attributes [.cls .digit] none, .replace [.string (t "hello")], .cls (t "digitletter") none] := by decide +kernel
/-- `consume_all` -/
example : tsts "@123#1=0&too much input" = none := by decide +kernel
/-- `at_beginning_and_at_end` -/
example : tsts "`\"a\"" = some [.atBeginning, .string ['a']] ∧ tsts "\"a\"~" = some [.string ['a'], .atEnd] ∧
    tsts "#1=0`[\"'\"]" = some [.varTest 1 .eq 0, .atBeginning, .replace [.string ['\'']]] ∧ tsts "!`" = some [.negate .atBeginning] ∧
    tsts "!~" = some [.negate .atEnd] := by decide +kernel

end Louis.Conform.ParserTests
