import Verif.Conform.Base

/-! # The tests of src/translator/table/primary.rs

`PrimaryTable::translate` is the whole translation of a table without `correct` and `pass` lines. -/

namespace Louis.Conform.PrimaryTests

/-- /repo/dictionaries/nocross-test.dic and nocross-precedence-test.dic (without the comments). -/
def dicSys : Sys := ⟨Char.isAlpha, fun p =>
  if p = t "dictionaries/nocross-test.dic" then some [t "UTF-8", t "# Minimal", t "s1b"]
  else if p = t "dictionaries/nocross-precedence-test.dic" then
    some [t "UTF-8", t "# Minimal", t "LEFTHYPHENMIN 1", t "RIGHTHYPHENMIN 1", t ".e1r"]
  else none⟩

/-- `expand_includes`, for tables that include only hyphenation tables. -/
def includeDic (r : Anchored) : Anchored := match r.rule with
  | .incl file => { r with rule := .includeHyphenation file }
  | _ => r

def translatesDic (cs : Case) (d : Direction) (lines : List String) (inputs : List String) : Option (List (Option String)) :=
  (rulesOf lines).map fun rules => inputs.map fun i =>
    (runText dicSys cs 200 (rules.map includeDic) d [] i.toList).map String.ofList

/-- `translate` -/
example : translates asciiCase .forward
    ["always foo 123", "always bar 456", "space \\s 0"]
    ["foobar", "  ", "🐂"] =
    some [some "⠇⠸", some "⠀⠀", some "⠳⠭⠂⠋⠲⠴⠆"] := by decide +kernel

/-- `midword` -/
example : translates asciiCase .forward
    ["lowercase a 1", "lowercase b 2", "lowercase f 3", "lowercase o 4", "lowercase r 5", "always foo 14", "midword bar 15", "space \\s 0"]
    ["bar", "foobar", "foobarfoo", "foobar foo", "foo bar foo"] =
    some [some "⠂⠁⠐", some "⠉⠂⠁⠐", some "⠉⠑⠉", some "⠉⠂⠁⠐⠀⠉", some "⠉⠀⠂⠁⠐⠀⠉"] := by decide +kernel

/-- `midword_with_precedence` -/
example : translates asciiCase .forward
    ["lowercase a 1", "lowercase b 2", "lowercase f 3", "lowercase o 4", "lowercase r 5", "always foo 14", "always bar 24", "midword bar 26", "space \\s 0"]
    ["bar", "foobar", "foobarfoo", "foobar foo", "foo bar foo"] =
    some [some "⠊", some "⠉⠊", some "⠉⠢⠉", some "⠉⠊⠀⠉", some "⠉⠀⠊⠀⠉"] := by decide +kernel

/-- `endword` -/
example : translates asciiCase .forward
    ["lowercase a 1", "lowercase b 2", "lowercase f 3", "lowercase o 4", "lowercase r 5", "punctuation . 6", "always foo 14", "endword bar 15", "space \\s 0"]
    ["bar", "foobar", "foobar.", "foobarfoo", "foobar foo", "foo bar foo"] =
    some [some "⠂⠁⠐", some "⠉⠑", some "⠉⠑⠠", some "⠉⠂⠁⠐⠉", some "⠉⠑⠀⠉", some "⠉⠀⠂⠁⠐⠀⠉"] := by decide +kernel

/-- `partword` -/
example : translates asciiCase .forward
    ["lowercase a 1", "lowercase b 2", "lowercase f 3", "lowercase o 4", "lowercase r 5", "punctuation . 6", "always foo 14", "partword bar 15", "space \\s 0"]
    ["bar", "foobar", "foobar.", "foobarfoo", "foobar foo", "foobar. foo", "foo bar foo"] =
    some [some "⠂⠁⠐", some "⠉⠑", some "⠉⠑⠠", some "⠉⠑⠉", some "⠉⠑⠀⠉", some "⠉⠑⠠⠀⠉", some "⠉⠀⠂⠁⠐⠀⠉"] := by decide +kernel

/-- `sufword` -/
example : translates asciiCase .forward
    ["lowercase a 1", "lowercase b 2", "lowercase f 3", "lowercase o 4", "lowercase r 5", "punctuation . 6", "always foo 14", "sufword bar 15", "space \\s 0"]
    ["bar", "foobar", "barfoo", "foobar.", "foobarfoo", "foobar foo", "foobar. foo", "foo bar foo"] =
    some [some "⠑", some "⠉⠂⠁⠐", some "⠑⠉", some "⠉⠂⠁⠐⠠", some "⠉⠂⠁⠐⠉", some "⠉⠂⠁⠐⠀⠉", some "⠉⠂⠁⠐⠠⠀⠉", some "⠉⠀⠑⠀⠉"] := by decide +kernel

/-- `prfword` -/
example : translates asciiCase .forward
    ["lowercase a 1", "lowercase b 2", "lowercase f 3", "lowercase o 4", "lowercase r 5", "punctuation . 6", "always foo 14", "prfword bar 15", "space \\s 0"]
    ["bar", "foobar", "barfoo", "foobar.", "foobarfoo", "foobar foo", "foobar. foo", "foo bar foo"] =
    some [some "⠑", some "⠉⠑", some "⠂⠁⠐⠉", some "⠉⠑⠠", some "⠉⠂⠁⠐⠉", some "⠉⠑⠀⠉", some "⠉⠑⠠⠀⠉", some "⠉⠀⠑⠀⠉"] := by decide +kernel

/-- `begnum` -/
example : translates asciiCase .forward
    ["digit 1 1", "lowercase a 3456", "begnum a 4"]
    ["1", "a", "a1"] =
    some [some "⠁", some "⠼", some "⠈⠁"] := by decide +kernel

/-- `endnum` -/
example : translates asciiCase .forward
    ["digit 1 1", "lowercase h 125", "lowercase t 2345", "punctuation . 6", "always th 14", "endnum th 15"]
    ["th", "1th", "1th."] =
    some [some "⠉", some "⠁⠑", some "⠁⠑⠠"] := by decide +kernel

/-- `begnum_punctuation_indicator` -/
example : translates asciiCase .forward
    ["digit 1 1", "punctuation # 3456", "punctuation . 256", "lowercase a 14", "begnum # 4"]
    ["#1", ".#1", "a#1", "#a"] =
    some [some "⠈⠁", some "⠲⠈⠁", some "⠉⠼⠁", some "⠼⠉"] := by decide +kernel

/-- `endnum_punctuation_indicator` -/
example : translates asciiCase .forward
    ["digit 1 1", "lowercase a 14", "punctuation # 3456", "endnum # 4"]
    ["1#", "a#", "#", "1#1", "1#a"] =
    some [some "⠁⠈", some "⠉⠼", some "⠼", some "⠁⠈⠁", some "⠁⠈⠉"] := by decide +kernel

/-- `prepunc_postpunc` -/
example : translates asciiCase .forward
    ["lowercase f 3", "lowercase o 4", "punctuation ( 23678", "prepunc     ( 2356", "punctuation ) 35678", "postpunc    ) 2356"]
    [")", "(", "()", "foo)", "(foo", "(foo)"] =
    some [some "⣴", some "⣦", some "⣦⣴", some "⠄⠈⠈⠶", some "⠶⠄⠈⠈", some "⠶⠄⠈⠈⠶"] := by decide +kernel

/-- `base` -/
example : translates asciiCase .forward
    ["lowercase a 1", "lowercase b 12", "base uppercase A a"]
    ["a", "A", "ab", "Ab"] =
    some [some "⠁", some "⠁", some "⠁⠃", some "⠁⠃"] := by decide +kernel

/-- `match_simple` -/
example : translates asciiCase .forward
    ["lowercase a 1", "lowercase b 2", "lowercase f 3", "lowercase o 4", "lowercase r 5", "match a foo b 14"]
    ["foo", "afoo", "afoob"] =
    some [some "⠄⠈⠈", some "⠁⠄⠈⠈", some "⠁⠉⠂"] := by decide +kernel

/-- `match_with_any` -/
example : translates asciiCase .forward
    ["lowercase a 1", "lowercase b 2", "lowercase f 3", "lowercase o 4", "lowercase r 5", "match . foo b 14"]
    ["foo", "afoo", "afoob", "ffoob"] =
    some [some "⠄⠈⠈", some "⠁⠄⠈⠈", some "⠁⠉⠂", some "⠄⠉⠂"] := by decide +kernel

/-- `match_with_set` -/
example : translates asciiCase .forward
    ["lowercase f 3", "lowercase o 4", "lowercase s 7", "lowercase z 5", "match [fz] oo [fz] 14"]
    ["oo", "soo", "foof", "zoof", "soof"] =
    some [some "⠈⠈", some "⡀⠈⠈", some "⠄⠉⠄", some "⠐⠉⠄", some "⡀⠈⠈⠄"] := by decide +kernel

/-- `numeric_indication` -/
example : translates asciiCase .forward
    ["lowercase f 3", "lowercase o 4", "litdigit 1 1", "litdigit 2 12", "litdigit 3 14", "numsign 3456", "nonumsign 56", "numericnocontchars abcdefghij"]
    ["123", "123foo", "foof"] =
    some [some "⠼⠁⠃⠉", some "⠼⠁⠃⠉⠰⠄⠈⠈", some "⠄⠈⠈⠄"] := by decide +kernel

/-- `uppercase_indication` -/
example : translates asciiCase .forward
    ["lowercase a 1", "lowercase b 12", "lowercase c 14", "base uppercase A a", "base uppercase B b", "base uppercase C c", "capsletter 46", "begcapsword 6-6"]
    ["abc", "Abc", "ABC"] =
    some [some "⠁⠃⠉", some "⠨⠁⠃⠉", some "⠠⠠⠁⠃⠉"] := by decide +kernel

/-- `lettersign_indication` -/
example : translates asciiCase .forward
    ["lowercase a 1", "lowercase b 12", "lowercase c 14", "lowercase d 145", "lowercase e 15", "lowercase f 124", "lowercase o 135", "lowercase u 136", "lowercase t 2345", "letsign 6", "word about 1-12", "contraction ab", "contraction cd"]
    ["about", "ab", "cd", "abcd", "ef"] =
    some [some "⠁⠃", some "⠠⠁⠃", some "⠠⠉⠙", some "⠁⠃⠉⠙", some "⠑⠋"] := by decide +kernel

/-- `nocontractsign_indication` -/
example : translates asciiCase .forward
    ["lowercase a 1", "lowercase b 12", "lowercase c 14", "lowercase d 145", "lowercase e 15", "lowercase f 124", "lowercase o 135", "lowercase u 136", "lowercase t 2345", "nocontractsign 6", "word about 1-12", "contraction ab", "contraction cd"]
    ["about", "ab", "cd", "abcd", "ef"] =
    some [some "⠁⠃", some "⠠⠁⠃", some "⠠⠉⠙", some "⠁⠃⠉⠙", some "⠑⠋"] := by decide +kernel

/-- `nocross` -/
example : translatesDic asciiCase .forward
    ["include dictionaries/nocross-test.dic", "lowercase a 1", "lowercase b 12", "lowercase h 125", "lowercase o 135", "lowercase s 234", "lowercase t 2345", "lowercase u 136", "always hausboot 123", "nocross always hausboot 456", "always fff 123", "nocross always fff 456", "space \\s 0"]
    ["hausboot", "fff"] =
    some [some "⠇", some "⠸"] := by decide +kernel

/-- `nocross_without_plain_counterpart` -/
example : translatesDic asciiCase .forward
    ["include dictionaries/nocross-test.dic", "lowercase f 124", "nocross always fff 456", "space \\s 0"]
    ["fff"] =
    some [some "⠸"] := by decide +kernel

/-- `nocross_precedence_follows_word_hyphenation` -/
example : translatesDic asciiCase .forward
    ["include dictionaries/nocross-precedence-test.dic", "lowercase e 1", "lowercase r 12", "nocross always er 6", "nocross partword re 56"]
    ["ere"] =
    some [some "⠁⠰"] := by decide +kernel

/-- `backtranslation` -/
example : translates asciiCase .backward
    ["lowercase f 3", "lowercase o 4", "always foo 123", "always bar 456", "space \\s 0"]
    ["⠇⠸", "⠀⠀", "⠄⠈⠈"] =
    some [some "foobar", some "  ", some "foo"] := by decide +kernel

/-- `indication_not_reemitted_at_zero_length_candidate` -/
example : translates asciiCase .forward
    ["digit 0 1", "lowercase i 24", "letsign 6", "context $d[]$l @6"]
    ["0i"] =
    some [some "⠁⠠⠠⠊"] := by decide +kernel

/-- `context_with_variable` -/
example : translates asciiCase .forward
    ["lowercase a 1", "sign : 123", "sign ; 456", "context \":\" @123#1=1", "context #1=1\"a\" @3#1=1", "context \";\" @456#1=0"]
    ["aa", "aa;aa", "aa:aa;aa"] =
    some [some "⠁⠁", some "⠁⠁⠸⠁⠁", some "⠁⠁⠇⠄⠄⠸⠁⠁"] := by decide +kernel

/-- `always_with_uppercase` -/
example : translates asciiCase .forward
    ["lowercase a 1", "lowercase b 12", "lowercase c 14", "base uppercase A a", "base uppercase B b", "base uppercase C c", "capsletter 46", "begcapsword 6-6", "always abc 78"]
    ["abc", "Abc", "ABC"] =
    some [some "⣀", some "⠨⣀", some "⠠⠠⣀"] := by decide +kernel

/-- `backward_capsletter_beats_colliding_punctuation_and_titlecases_next_letter` -/
example : translates asciiCase .backward
    ["lowercase a 1", "lowercase b 12", "capsletter 46", "punctuation $ 46"]
    ["⠨⠃"] =
    some [some "B"] := by decide +kernel

/-- `backward_numsign_prefers_digit_reading_of_shared_dots` -/
example : translates asciiCase .backward
    ["lowercase a 1", "litdigit 1 1", "numsign 3456"]
    ["⠼⠁", "⠁"] =
    some [some "1", some "a"] := by decide +kernel

/-- `backward_begcapsword_uppercases_whole_word` -/
example : translates asciiCase .backward
    ["lowercase a 1", "lowercase b 12", "begcapsword 46-46"]
    ["⠨⠨⠁⠃"] =
    some [some "AB"] := by decide +kernel

/-- `backward_capsletter_does_not_shadow_a_real_letter_sharing_its_dots` -/
example : translates asciiCase .backward
    ["lowercase a 1", "letter b 6", "capsletter 6"]
    ["⠠⠁"] =
    some [some "ba"] := by decide +kernel

end Louis.Conform.PrimaryTests
