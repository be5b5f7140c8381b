import Verif.Conform.Base

/-! # The tests of src/translator/context_pattern.rs, src/translator/table/multipass.rs and src/translator/pipeline.rs -/

namespace Louis.Conform.ContextTests

open Louis.Regexp (find compile)

/-- `Regexp::from_test(&tests, &ctx).compile_with_payload(translation)` with an empty literal as output, then `find`. -/
def finds (ctx : CharClasses) (test : String) (inputs : List String) : Option (List (Option (Option Resolved))) :=
  match parseTest (t test) with
  | .error _ => none
  | .ok ts => (fromInstrs ctx ts).map fun r => inputs.map fun i =>
      (find (compile r (Translation.unresolved ⟨[.literal []], .default, .main, [], none⟩)) asciiLower (t i) (fun _ => none)).toOption.map
        (·.map fun f => f.payload.resolve f.capture f.length f.offset)

def hit (n : Nat) : Option (Option Resolved) := some (some (Resolved.new [] [] n .main none))
def cap (s : String) (n : Nat) : Option (Option Resolved) := some (some { Resolved.new (t s) [] n .main none with offset := 1 })
def miss : Option (Option Resolved) := some none

def classes (l : List (CharClass × String)) : CharClasses := l.flatMap fun p => p.2.toList.map fun c => (p.1, c)

/-- `find_string` -/
example : finds [] "\"abc\"" ["abc", "def"] = some [hit 3, miss] := by decide +kernel
/-- `find_attribute_digit` -/
example : finds (classes [(.digit, "123")]) "$d" ["1", "2", "3", "def"] = some [hit 1, hit 1, hit 1, miss] := by decide +kernel
/-- `find_attribute_uppercase` -/
example : finds (classes [(.uppercase, "ABC")]) "$U" ["A", "C", "def"] = some [hit 1, hit 1, miss] := by decide +kernel
/-- `find_attribute_uppercase_punctuation_or_sign` -/
example : finds (classes [(.uppercase, "ABC"), (.punctuation, ".,!"), (.sign, "%&/")]) "$USp" ["%", ".", "A", "def"] =
    some [hit 1, hit 1, hit 1, miss] := by decide +kernel
/-- `find_character_class` -/
example : finds (classes [(.letter, "abc")]) "%letter" ["a", "b", "c", "def"] = some [hit 1, hit 1, hit 1, miss] := by decide +kernel
/-- `find_character_class_three` -/
example : finds (classes [(.letter, "abc")]) "%letter3" ["abc", "bbb", "ccc", "a", "aa", "def"] =
    some [hit 3, hit 3, hit 3, miss, miss, miss] := by decide +kernel
/-- `find_character_class_any` -/
example : finds (classes [(.letter, "abc")]) "%letter." ["a", "b", "c", "y", "bbb", "ccc", "def"] =
    some [hit 1, hit 1, hit 1, miss, hit 3, hit 3, miss] := by decide +kernel
/-- `find_capture_with_character_class` -/
example : finds (classes [(.digit, "123")]) "\"a\"[%digit]\"b\"" ["a1b", "a2b", "a3b", "bbb", "ccc", "a", "aa", "def"] =
    some [cap "1" 3, cap "2" 3, cap "3" 3, miss, miss, miss, miss, miss] := by decide +kernel
/-- `find_capture_with_attribute` -/
example : finds (classes [(.digit, "123"), (.uppercase, "ABC")]) "\"a\"[$dU]\"b\""
    ["a1b", "a2b", "a3b", "aAb", "aBb", "aCb", "bbb", "ccc", "a", "aa", "def"] =
    some [cap "1" 3, cap "2" 3, cap "3" 3, cap "A" 3, cap "B" 3, cap "C" 3, miss, miss, miss, miss, miss] := by decide +kernel
/-- `find_capture_with_attribute_and_quantifier` -/
example : finds (classes [(.digit, "123"), (.uppercase, "ABC")]) "\"a\"[$dU3]\"b\""
    ["a1b", "a22b", "a31b", "a123b", "a222b", "a321b", "aABCb", "aBBBb", "aCBAb", "bbb", "ccc", "a", "aa", "def"] =
    some [miss, miss, miss, cap "123" 5, cap "222" 5, cap "321" 5, cap "ABC" 5, cap "BBB" 5, cap "CBA" 5, miss, miss, miss, miss, miss] := by
  decide +kernel

def origin : Origin := ⟨.other, 0⟩

/-- `ContextPatternsBuilder::insert`, then `ContextPatterns::find`. -/
def patterns (ctx : CharClasses) (swaps : SwapClasses) (stage : Stage) (env : Env) (test action : String) (inputs : List (String × Bool)) :
    Option (List (Option (List Resolved))) :=
  match parseTest (t test), parseAction (t action) with
  | .ok ts, .ok as => (compilePattern ctx swaps stage .default origin ts as).toOption.map fun p =>
      inputs.map fun i => (patternsFind [p] asciiLower (t i.1) env i.2).toOption
  | _, _ => none

def res (stage : Stage) (input output : String) (weight offset : Nat) : Option (List Resolved) :=
  some [{ Resolved.new (t input) (t output) weight stage (some origin) with offset }]

def none' : Option (List Resolved) := some []

/-- `context_simple` -/
example : patterns [] [] .main Env.new "\"abc\"" "\"A_B_C\"" [("abc", true), ("def", true)] =
    some [res .main "abc" "A_B_C" 3 0, none'] := by decide +kernel
/-- `context_capture` -/
example : patterns [] [] .main Env.new "[\"abc\"]" "\"<\"*\">\"" [("abc", true), ("def", true)] =
    some [res .main "abc" "<abc>" 3 0, none'] := by decide +kernel
/-- `context_at_beginning_anchor` -/
example : patterns [] [] .main Env.new "`\"a\"" "\"X\"" [("a", true), ("a", false)] = some [res .main "a" "X" 1 0, none'] := by
  decide +kernel
/-- `context_at_end_anchor` -/
example : patterns [] [] .main Env.new "\"a\"~" "\"X\"" [("a", true), ("ab", true)] = some [res .main "a" "X" 1 0, none'] := by
  decide +kernel
/-- `context_at_beginning_anchor_after_other_test` -/
example : (got (Env.new.apply (Effect.new 1 0))).bind (fun env => patterns [] [] .main env "#1=0`\"a\"" "\"X\"" [("a", true), ("a", false)]) =
    some [res .main "a" "X" 1 0, none'] := by decide +kernel
/-- `context_negated_beginning_and_end_anchor` -/
example : patterns [] [] .main Env.new "!`\"a\"" "\"X\"" [("a", true), ("a", false)] = some [none', res .main "a" "X" 1 0] := by
  decide +kernel
/-- `context_lookback_before_bracket_is_ignored_not_consumed` -/
example : patterns (classes [(.digit, "a")]) [] .main Env.new "_1$d[\"b\"]" "\"X\"" [("ab", true), ("bb", true)] =
    some [res .main "b" "X" 2 1, none'] := by decide +kernel
/-- `context_lookback_after_bracket_is_ignored_not_consumed` -/
example : patterns (classes [(.digit, "1")]) [] .main Env.new "[\"b\"]!$d_" "\"X\"" [("bz", true), ("b1", true)] =
    some [res .main "b" "X" 2 0, none'] := by decide +kernel
/-- `context_beginning_and_end_anchor_regression` -/
example : patterns [] [] .main Env.new "`[\"-\"]~" "*" [("-", true), ("-0", true), ("-", false)] =
    some [res .main "-" "-" 1 0, none', none'] := by decide +kernel
/-- `context_capture_with_class` -/
example : patterns (classes [(.user (t "accent"), "⠐")]) [] .post1 Env.new "@135[%accent]@13456" "*@136" [("⠕⠐⠽", true), ("⠕", true)] =
    some [res .post1 "⠐" "⠐⠥" 3 1, none'] := by decide +kernel
/-- `context_capture_advanced` -/
example : patterns (classes [(.punctuation, "{}")]) [] .main Env.new "$p3[\"abc\"]$p3" "\"<\"*\">\"" [("{{{abc}}}", true), ("def", true)] =
    some [res .main "abc" "<abc>" 9 3, none'] := by decide +kernel
/-- `context_swap` -/
example : patterns (classes [(.punctuation, "{}")]) (SwapClasses.insert [] (t "foo") [('a', t "A"), ('b', t "B"), ('c', t "C")]) .main Env.new
    "$p3[\"abc\"]$p3" "\"<\"%foo\">\"" [("{{{abc}}}", true), ("def", true)] = some [res .main "abc" "<ABC>" 9 3, none'] := by
  decide +kernel

/-! ## multipass.rs -/

/-- `MultipassTable::compile` with the default context, then `translate`. -/
def multipass (stage : Stage) (k : PassKind) (lines inputs : List String) : Option (List (Option String)) :=
  (Conform.rulesOf lines).bind fun rules => (compilePass [] [] .forward stage (passRules k rules)).toOption.map fun ps =>
    inputs.map fun i => (mpLoop ⟨ps, stage⟩ asciiLower (t i) 100 (MpState.init (t i))).toOption.map fun ts => String.ofList (outputOf ts)

/-- `correct` -/
example : multipass .pre .correct ["correct \"corect\" \"correct\""] ["foobar", "corect", "🐂"] =
    some [some "foobar", some "correct", some "🐂"] := by decide +kernel
/-- `pass2` -/
example : multipass .post1 .pass2 ["pass2 @123 @12"] ["⠇", "⠙", "🐂"] = some [some "⠃", some "⠙", some "🐂"] := by decide +kernel
/-- `pass3` -/
example : multipass .post2 .pass3 ["pass3 @123 @12"] ["⠇", "⠙", "🐂"] = some [some "⠃", some "⠙", some "🐂"] := by decide +kernel
/-- `pass4` -/
example : multipass .post3 .pass4 ["pass4 @123 @12"] ["⠇", "⠙", "🐂"] = some [some "⠃", some "⠙", some "🐂"] := by decide +kernel
/-- `pass3_collapse_doubled_cell` -/
example : multipass .post2 .pass3 ["noback pass3 @12-12 @12"] ["⠃⠃", "⠃⠙⠃"] = some [some "⠃", some "⠃⠙⠃"] := by decide +kernel
/-- `effects` -/
example : multipass .post1 .pass2 ["pass2 @123 @123#1=1", "pass2 #1=1@1 @6", "pass2 @456 @456#1=0"] ["⠁⠁⠇⠁⠁⠸⠁⠁", "🐂"] =
    some [some "⠁⠁⠇⠠⠠⠸⠁⠁", some "🐂"] := by decide +kernel

/-! ## pipeline.rs -/

/-- `correct` -/
example : translates asciiCase .forward ["always foo 123", "always bar 456", "noback correct \"baz\" \"bar\"", "space \\s 0"]
    ["baz", "foobaz", "foobar", "  ", "🐂"] = some [some "⠸", some "⠇⠸", some "⠇⠸", some "⠀⠀", some "⠳⠭⠂⠋⠲⠴⠆"] := by decide +kernel
/-- `pass2` -/
example : translates asciiCase .forward ["always foo 123", "always bar 456", "noback pass2 @123 @1", "space \\s 0"]
    ["foo", "foobar", "  ", "🐂"] = some [some "⠁", some "⠁⠸", some "⠀⠀", some "⠳⠭⠂⠋⠲⠴⠆"] := by decide +kernel
/-- `pass2_with_capture` -/
example : translates asciiCase .forward ["lowercase o 135", "lowercase ύ 5-13456", "sign ΄ 5", "attribute accent ΄",
    "noback pass2 @135[%accent]@13456 *@136"] ["o", "oύ"] = some [some "⠕", some "⠕⠐⠥⠽"] := by decide +kernel
/-- `pass3` -/
example : translates asciiCase .forward ["always foo 123", "always bar 456", "noback pass2 @123 @78", "noback pass3 @78 @1", "space \\s 0"]
    ["foo", "foobar", "  ", "🐂"] = some [some "⠁", some "⠁⠸", some "⠀⠀", some "⠳⠭⠂⠋⠲⠴⠆"] := by decide +kernel
/-- `pass4` -/
example : translates asciiCase .forward ["always foo 123", "always bar 456", "noback pass2 @123 @67", "noback pass3 @67 @78",
    "noback pass4 @78 @1", "space \\s 0"] ["foo", "foobar", "  ", "🐂"] =
    some [some "⠁", some "⠁⠸", some "⠀⠀", some "⠳⠭⠂⠋⠲⠴⠆"] := by decide +kernel

end Louis.Conform.ContextTests
