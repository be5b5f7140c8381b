import Verif.Conform.Base

/-! # The tests of src/translator/regexp.rs -/

namespace Louis.Conform.RegexpTests

open Louis.Regexp

/-- regexp.rs:458-460 `is_match`. -/
def hits (env : Nat → Option Nat) (r : Regexp) (s : String) : Bool :=
  match find (compile r ()) asciiLower s.toList env with
  | .ok (some _) => true
  | _ => false

def misses (env : Nat → Option Nat) (r : Regexp) (s : String) : Bool :=
  match find (compile r ()) asciiLower s.toList env with
  | .ok none => true
  | _ => false

def noEnv : Nat → Option Nat := fun _ => none

/-- All of `yes` match and none of `no`. -/
def check (env : Nat → Option Nat) (r : Regexp) (yes no : List String) : Bool := yes.all (hits env r) && no.all (misses env r)

/-- `character` -/
example : check noEnv (.literal 'a') ["a"] ["b"] = true := by decide +kernel
/-- `alteration` -/
example : check noEnv (.either (.literal 'a') (.literal 'b')) ["a", "b", "ab"] ["c"] = true := by decide +kernel
/-- `multiple_alterations` -/
example : check noEnv (.either (.literal 'a') (.either (.literal 'b') (.literal 'c'))) ["a", "b", "ab", "c"] ["d"] = true := by
  decide +kernel
/-- `concatenation` -/
example : check noEnv (.concat (.literal 'a') (.literal 'b')) ["ab", "abc"] ["a", "b", "ba", "c"] = true := by decide +kernel
/-- `catastrophic_backtracking_pattern_is_bounded`, with a shorter text (that the number of steps is bounded is C05). -/
example : check noEnv (.concat (.oneOrMore (.oneOrMore (.literal 'a'))) (.literal 'b')) [] [String.ofList (List.replicate 200 'a')] = true := by
  decide +kernel
/-- `zero_width_loop_body_is_bounded` -/
example : check noEnv (.zeroOrMore .empty) [""] [] && check noEnv (.oneOrMore .empty) [""] [] &&
    check noEnv (.repeatAtLeast 2 .empty) [""] [] = true := by decide +kernel
/-- `kleene` -/
example : check noEnv (.zeroOrMore (.literal 'a')) ["", "a", "aa", "aaaaa", "b", "ba", "ab", "c", "abc"] [] = true := by decide +kernel
/-- `one_or_more` -/
example : check noEnv (.oneOrMore (.literal 'a')) ["a", "aa", "ab", "abc", "aaaaa"] ["", "b", "ba", "c"] = true := by decide +kernel
/-- `any` -/
example : check noEnv .any ["abb"] [] = true := by decide +kernel
/-- `negate_any` -/
example : (negate .any).map (fun r => check noEnv r [] ["a", ""]) = some true := by decide +kernel
/-- `optional` -/
example : check noEnv (.concat (.optional (.concat (.literal 'a') .any)) (.literal 'b')) ["acb", "axb", "b", "bbb"] ["c"] = true := by
  decide +kernel
/-- `character_class` -/
example : check noEnv (.oneOrMore (.cls ['a', 'b', 'c'])) ["acb", "axb", "b", "bbb", "c"] ["x"] = true := by decide +kernel
/-- `repeat_exactly` -/
example : check noEnv (.repeatExactly 1 (.literal 'a')) ["a", "aa", "aaaa"] ["c", "bbb", ""] &&
    check noEnv (.repeatExactly 2 (.literal 'a')) ["aa", "aaa", "aaaa"] ["c", "bbb", "", "a"] &&
    check noEnv (.repeatExactly 3 (.literal 'a')) ["aaa", "aaaa"] ["c", "bbb", "a", "aa"] = true := by decide +kernel
/-- `repeat_at_least` -/
example : check noEnv (.repeatAtLeast 1 (.literal 'a')) ["a", "aa", "aaa", "aaaaaaaaaaaaaaaaaaaaaa", "aaab"] ["c", "bbb", ""] &&
    check noEnv (.repeatAtLeast 2 (.literal 'a')) ["aa", "aaa", "aaaa", "aaaaaaaaaaaaaaaaaaaaa", "aaab"] ["c", "bbb", "", "a"] &&
    check noEnv (.repeatAtLeast 3 (.literal 'a')) ["aaa", "aaaa", "aaaaa", "aaaaaaaaaaaaaaaaaaaaaa", "aaab"] ["c", "bbb", "a", "aa"] = true := by
  decide +kernel
/-- `repeat_at_least_at_most` -/
example : check noEnv (.repeatAtLeastAtMost 3 5 (.literal 'a')) ["aaa", "aaaa", "aaaaa", "aaaaaa", "aaaaaaaaaaaaaaaaaaaaaa", "aaab"]
    ["a", "aa", "c", "bbb"] = true := by decide +kernel
/-- `variable_equal` -/
example : check noEnv (.concat (.varEq 1 1) (.literal 'a')) [] ["a", "aa", "aaab", "c", "bbb"] &&
    check (fun i => if i = 1 then some 42 else none) (.concat (.varEq 1 1) (.literal 'a')) [] ["a", "aa", "aaab", "c", "bbb"] &&
    check (fun i => if i = 1 then some 1 else none) (.concat (.varEq 1 1) (.literal 'a')) ["a", "aa", "aaab"] ["c", "bbb"] = true := by
  decide +kernel

/-- `CompiledRegexp::find`, resolved. -/
def found (r : Regexp) (payload : Translation) (s : String) : Option (Option Resolved) :=
  (find (compile r payload) asciiLower s.toList noEnv).toOption.map (·.map fun f => f.payload.resolve f.capture f.length f.offset)

def fooBarFoo : Regexp := .concat (.string (t "foo")) (.concat (.capture (.concat .any (.string (t "ar")))) (.string (t "foo")))

def expected (input output : String) : Resolved :=
  { Resolved.new (t input) (t output) 3 .main none with offset := 3, weight := 9 }

/-- `capture` -/
example : ["foo", "foobar", "foobarfoo", "fooxarfoo", "foobarfoobar", "aaaaaa", "bbb"].map
    (found fooBarFoo (.unresolved ⟨[.capture], .default, .main, [], none⟩)) =
    [some none, some none, some (some (expected "bar" "bar")), some (some (expected "xar" "xar")), some (some (expected "bar" "bar")),
      some none, some none] := by decide +kernel
/-- `capture_replace_with_literal` -/
example : ["foo", "foobar", "foobarfoo", "fooxarfoo", "foobarfoobar"].map
    (found fooBarFoo (.unresolved ⟨[.literal (t "baz")], .default, .main, [], none⟩)) =
    [some none, some none, some (some (expected "bar" "baz")), some (some (expected "xar" "baz")), some (some (expected "bar" "baz"))] := by
  decide +kernel
/-- `offset` -/
example : ["foo", "foobar", "foobarfoo", "foobarfoobar", "aaaaaa", "bbb"].map
    (found (.concat (.literal 'f') (.concat (.literal 'o') (.concat (.literal 'o') (.concat
      (.capture (.concat (.literal 'b') (.concat (.literal 'a') (.literal 'r'))))
      (.concat (.literal 'f') (.concat (.literal 'o') (.literal 'o')))))))
      (.resolved (Resolved.new (t "bar") (t "baz") 9 .main none))) =
    [some none, some none, some (some (expected "bar" "baz")), some (some (expected "bar" "baz")), some none, some none] := by
  decide +kernel

end Louis.Conform.RegexpTests
