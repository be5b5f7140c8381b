import Verif.Conform.Base

/-! # The tests of src/translator/trie.rs, src/translator/swap.rs and src/translator/translation.rs -/

namespace Louis.Conform.TrieTests

def rule : Origin := ⟨.other, 0⟩

/-- A call of `insert` in forward direction. -/
def ins (chars dots : String) (before after : Option (List CharClass)) (cs : List ClassConstraint) : TrieRule :=
  ⟨t chars, t dots, before, after, cs, .default, .main, rule⟩

/-- `find_translations` for each of the inputs, after the insertions. -/
def finds (ctx : CharClasses) (rs : List TrieRule) (inputs : List (String × Option Char)) : Option (List (List Resolved)) :=
  (Trie.insertAll ctx .forward rs Trie.empty).map fun trie => inputs.map fun i => trie.find asciiLower i.1.toList i.2

def res (input output : String) (weight : Nat) : Resolved := Resolved.new (t input) (t output) weight .main (some rule)

/-- `CharacterClasses::new`. -/
def classes (l : List (CharClass × String)) : CharClasses := l.flatMap fun p => p.2.toList.map fun c => (p.1, c)

/-- `empty_trie` -/
example : finds [] [] [("foo", none)] = some [[]] := by decide +kernel

/-- `find_translations` -/
example :
    let rs := [ins "a" "A" none none [], ins "f" "F" none none [], ins "fo" "FO" none none [], ins "foo" "FOO" none none [],
      ins "foobar" "FOOBAR" none none []]
    let a := res "a" "A" 1
    let f := res "f" "F" 1
    let fo := res "fo" "FO" 2
    let foo := res "foo" "FOO" 3
    let foobar := res "foobar" "FOOBAR" 6
    finds [] rs (["a", "f", "fo", "foobar", "foobaz", "function", "folio", "none", "The start of a long long sentence"].map (·, none)) =
      some [[a], [f], [f, fo], [f, fo, foo, foobar], [f, fo, foo], [f], [f, fo], [], []] := by decide +kernel

/-- `find_translations_with_boundaries` -/
example : finds (classes [(.letter, "ah")]) [ins "a" "A" (some [.space, .punctuation]) (some [.space, .punctuation]) []]
    [("a", none), ("aha", none)] = some [[res "a" "A" 3], []] := by decide +kernel

/-- `find_translations_with_negative_boundary_after` -/
example : finds (classes [(.letter, "fobar"), (.space, " "), (.punctuation, ".")])
    [ins "foo" "FOO" (some [.space, .punctuation]) (some [.letter]) []] [("foo", none), ("foo ", none), ("foobar", none), ("foo.", none)] =
    some [[], [], [res "foo" "FOO" 5], []] := by decide +kernel

/-- `find_translations_with_negative_boundary_before` -/
example : finds (classes [(.letter, "foc"), (.space, " "), (.punctuation, ".")]) [ins "foo" "FOO" (some [.letter]) none []]
    [("foo", none), ("foo", some ' '), ("foo", some '.'), ("foo", some 'c')] = some [[], [], [], [res "foo" "FOO" 4]] := by decide +kernel

/-- `find_translations_with_negative_boundaries` -/
example : finds (classes [(.letter, "fobarc"), (.space, " "), (.punctuation, ".")]) [ins "foo" "FOO" (some [.letter]) (some [.letter]) []]
    [("foo", none), ("foo", some ' '), ("foo", some '.'), ("foo", some 'c'), ("foobar", some 'c')] =
    some [[], [], [], [], [res "foo" "FOO" 5]] := by decide +kernel

/-- `find_translations_with_word_num_boundary` -/
example : finds (classes [(.letter, "ac"), (.litdigit, "1"), (.space, " "), (.punctuation, ".")])
    [ins "aaa" "A" (some [.space, .punctuation]) (some [.litdigit]) []]
    [("aaa", none), ("aaa1", some ' '), ("aaa1", some '.'), ("aaa1", some 'c')] =
    some [[], [res "aaa" "A" 5], [res "aaa" "A" 5], []] := by decide +kernel

/-- `find_translations_with_num_word_boundary` -/
example : finds (classes [(.letter, "sta"), (.litdigit, "1"), (.space, " "), (.punctuation, ".")])
    [ins "st" "S" (some [.litdigit]) (some [.space, .punctuation]) []]
    [("st", none), ("st", some ' '), ("st", some '.'), ("st", some '1'), ("sta", some '1')] =
    some [[], [], [], [res "st" "S" 4], []] := by decide +kernel

/-- `find_translations_with_word_punc_boundary` -/
example : finds (classes [(.punctuation, "()."), (.space, " "), (.letter, "a")]) [ins "(" "[" (some [.letter]) none []]
    [("(", none), ("(", some ' '), ("(", some '.'), ("(", some 'a')] = some [[], [], [], [res "(" "[" 2]] := by decide +kernel

/-- `find_translations_with_punc_word_boundary` -/
example : finds (classes [(.space, " "), (.punctuation, "()."), (.letter, "a")]) [ins "(" "[" none (some [.letter]) []]
    [("(", none), ("(", some ' '), ("(", some '.'), ("(", some 'a'), ("(a", none), ("(a", some '(')] =
    some [[], [], [], [], [res "(" "[" 2], [res "(" "[" 2]] := by decide +kernel

/-- `find_translations_case_insensitive` -/
example : finds [] [ins "foo" "FOO" none none []] [("foo", none), ("Foo", none), ("FOO", none), ("foO", none)] =
    some [[res "foo" "FOO" 3], [res "foo" "FOO" 3], [res "foo" "FOO" 3], [res "foo" "FOO" 3]] := by decide +kernel

/-- `find_translations_with_end_class` -/
example : finds (classes [(.letter, "abc"), (.digit, "12"), (.space, " ")])
    [ins "foo" "FL" none none [.stop .letter], ins "foo" "FD" none none [.stop .digit]]
    [("fooa", none), ("foo1", none), ("foo ", none), ("foo", none)] = some [[res "foo" "FL" 4], [res "foo" "FD" 4], [], []] := by
  decide +kernel

/-- `find_translations_with_start_class` -/
example : finds (classes [(.letter, "abc"), (.digit, "12"), (.space, " ")])
    [ins "foo" "AL" none none [.start .letter], ins "foo" "AD" none none [.start .digit]]
    [("foo", some 'a'), ("foo", some '1'), ("foo", some ' '), ("foo", none)] = some [[res "foo" "AL" 4], [res "foo" "AD" 4], [], []] := by
  decide +kernel

/-! ## swap.rs -/

/-- `swapper_swap` -/
example : (Swapper.mk [('a', t "⠁"), ('b', t "⠉"), ('c', t "⠙⠇")]).swap (t "abc") = t "⠁⠉⠙⠇" ∧
    (Swapper.mk [('a', t "⠁"), ('b', t "⠉"), ('c', t "⠙⠇")]).swap (t "xyz") = t "xyz" := by decide +kernel
/-- `swapper_empty` -/
example : (Swapper.mk []).swap (t "hello") = t "hello" := by decide +kernel
/-- `swapper_unicode` -/
example : (Swapper.mk [('α', t "alpha"), ('🚀', t "rocket")]).swap (t "α🚀") = t "alpharocket" := by decide +kernel
/-- `swap_classes_nonexistent` -/
example : SwapClasses.get [] (t "nonexistent") = none := by decide +kernel

/-! ## translation.rs -/

/-- `resolve_literal`, `resolve_capture`, `resolve_swap` -/
example : (Target.literal (t "foo")).resolve (t "bar") = t "foo" ∧ Target.capture.resolve (t "CAPTURED") = t "CAPTURED" ∧
    (Target.swap ⟨[('a', t "A"), ('b', t "B"), ('c', t "C")]⟩).resolve (t "abc") = t "ABC" := by decide +kernel

def resolved (output : List Target) (capture : String) (weight : Nat) : Resolved :=
  (Unresolved.mk output .default .main [] none).resolve (t capture) weight 0

/-- `translation_capture_empty`, `translation_capture_literal` -/
example : (resolved [.capture] "" 5).input = [] ∧ (resolved [.capture] "" 5).output = [] ∧
    (resolved [.capture] "captured" 8).input = t "captured" ∧ (resolved [.capture] "captured" 8).output = t "captured" := by decide +kernel
/-- `translation_capture_capture` -/
example : (resolved [.literal (t "<"), .capture, .literal (t ">")] "MIDDLE" 8).output = t "<MIDDLE>" := by decide +kernel
/-- `translation_capture_swap` -/
example : (resolved [.literal (t "<"), .swap ⟨[('x', t "X"), ('y', t "Y")]⟩, .literal (t ">")] "xyz" 8).output = t "<XYz>" := by
  decide +kernel
/-- `translation_capture_unicode` -/
example : (resolved [.literal (t "<"), .capture, .literal (t ">")] "café🚀🚀" 6).input = t "café🚀🚀" ∧
    (resolved [.literal (t "<"), .capture, .literal (t ">")] "café🚀🚀" 6).length = 6 := by decide +kernel

end Louis.Conform.TrieTests
