import Verif.Conform.Base

/-! # The tests of src/translator/indication.rs, src/translator/indication/*.rs and src/translator/position_constraints.rs -/

namespace Louis.Conform.IndicationTests

def sign (dots : String) : Option Resolved := some (indication (t dots) ⟨.other, 0⟩)

def pairs (l : List (Nat × Resolved)) : List (Nat × String) := l.map fun p => (p.1, String.ofList p.2.output)

/-! ## indication.rs -/

/-- `find_spans_returns_maximal_matching_runs` -/
example : spansIn (· != ' ') (t "  ab cd  e") 0 10 = [(2, 4), (5, 7), (9, 10)] := by decide +kernel
/-- `find_spans_respects_the_given_range` -/
example : spansIn (· == 'b') (t "aabbaabb") 2 6 = [(2, 4)] := by decide +kernel

def noCaps : CapIndicator := ⟨[], [], [], [], none, none, none, none, none, none, none, true, 2⟩

/-- `precompute_combines_indicators` -/
example : (got (Indicators.precompute
    ⟨none, [], some ⟨⟨['1', '2', '3'], [], []⟩, sign "⠼", none, []⟩, none,
      some { noCaps with upper := ['A', 'B', 'C'], letters := t "abcABC", capsletter := sign "⠠" }, none⟩ asciiLower (t "A1") [])).map
    (fun l => l.map fun ts => ts.map fun r => String.ofList r.output) = some [["⠠"], ["⠼"], []] := by decide +kernel

/-! ## nocontract.rs and lettersign.rs -/

def letterCtx (letters : String) (spaces : String) : CharClasses :=
  (letters.toList.map fun c => (CharClass.letter, c)) ++ (spaces.toList.map fun c => (CharClass.space, c))

def contractions (ctx : CharClasses) (dots : String) (cs : List String) : Trie :=
  (Trie.insertAll ctx .forward (cs.map fun c => contractionRule (t dots) ⟨.other, 0⟩ (t c)) Trie.empty).getD Trie.empty

def noc : NocIndicator := ⟨contractions (letterCtx "abcd" "") "⡀" ["ab", "cd"], indication (t "⡀") ⟨.other, 0⟩⟩

/-- `indicator` -/
example : contractionAt noc.contractions asciiLower (t "aa") none = false ∧ contractionAt noc.contractions asciiLower (t "ab") none = true ∧
    contractionAt noc.contractions asciiLower (t "cd") none = true := by decide +kernel
/-- `precompute_indicator` -/
example : pairs (noc.precompute asciiLower (t "aa")) = [] ∧ pairs (noc.precompute asciiLower (t "ab")) = [(0, "⡀")] := by decide +kernel

def letsign (letters spaces noletsign after : String) (cs : List String) : LetIndicator :=
  ⟨contractions (letterCtx letters spaces) "⠠" cs, indication (t "⠠") ⟨.other, 0⟩, t letters, t spaces, t noletsign, t after, []⟩

/-- `contraction_indicator` -/
example : contractionAt (letsign "abcd" " " "" "" ["ab"]).contractions asciiLower (t "aa") none = false ∧
    contractionAt (letsign "abcd" " " "" "" ["ab"]).contractions asciiLower (t "ab") none = true := by decide +kernel
/-- `isolated_letter_fires_when_not_preceded_by_space` -/
example : (["b:", "2b", "x b", " b ", ":bc", "abc"].map fun i => pairs ((letsign "abc" " " "" "" []).precompute asciiLower (t i))) =
    [[(0, "⠠")], [(1, "⠠")], [], [], [], []] := by decide +kernel
/-- `noletsign_suppresses_isolation_letsign` -/
example : (["2i", "2b"].map fun i => pairs ((letsign "abi" " " "i" "" []).precompute asciiLower (t i))) = [[], [(1, "⠠")]] := by decide +kernel
/-- `noletsign_suppresses_contraction_letsign` -/
example : pairs ((letsign "ab" "" "a" "" ["ab"]).precompute asciiLower (t "ab")) = [] := by decide +kernel
/-- `noletsignafter_suppresses_isolation_letsign` -/
example : (["2b", "3b"].map fun i => pairs ((letsign "abc" " " "" "2" []).precompute asciiLower (t i))) = [[], [(1, "⠠")]] := by decide +kernel
/-- `precompute_contraction` -/
example : (["aa", "ab"].map fun i => pairs ((letsign "abcd" "" "" "" ["ab", "cd"]).precompute asciiLower (t i))) = [[], [(0, "⠠")]] := by
  decide +kernel

/-! ## numeric.rs -/

/-- `precompute_number` -/
example : pairs (NumIndicator.precompute ⟨⟨['1', '2', '3'], [], []⟩, sign "⠼", none, t "abc"⟩ (t "ab12 a")) = [(2, "⠼")] := by decide +kernel
/-- `precompute_end_indication` -/
example : pairs (NumIndicator.precompute ⟨⟨['1', '2', '3'], [], []⟩, sign "⠼", sign "⠰", t "abc"⟩ (t "ab12a")) =
    [(2, "⠼"), (4, "⠰")] := by decide +kernel

/-! ## emphasis.rs -/

def emph (c : EmphClass) (input : String) (start stop : Nat) : Option (List (Nat × String)) :=
  (got (emphPrecompute [c] (t input) [⟨t "italic", start, stop⟩])).map pairs

/-- `emphletter_for_single_char` -/
example : emph { EmphClass.new (t "italic") with emphletter := sign "⠨" } "hello" 2 3 = some [(2, "⠨")] := by decide +kernel
/-- `begemphword_for_whole_word` -/
example : (emph { EmphClass.new (t "italic") with begemphword := sign "⠨" } "hello" 0 5).map (·.filter (·.1 == 0)) = some [(0, "⠨")] := by
  decide +kernel
/-- `noemphchars_splits_span_into_two_runs` -/
example : emph { EmphClass.new (t "italic") with emphletter := sign "⠨", noemph := [','] } "a,b" 0 3 = some [(0, "⠨"), (2, "⠨")] := by
  decide +kernel
/-- `emphmodechars_hyphen_splits_word_within_run` -/
example : emph { EmphClass.new (t "italic") with begemphword := sign "⠨", modeChars := [' ', '-'] } "well-known" 0 10 =
    some [(0, "⠨"), (5, "⠨")] := by decide +kernel

/-! ## computer_braille.rs -/

/-- `begcomp_emitted_at_span_start` -/
example : pairs (CompIndicator.precompute ⟨indication (t "⠿") ⟨.other, 0⟩, sign "⠿"⟩ (t "hello") [⟨t "computer_braille", 1, 4⟩]) =
    [(1, "⠿"), (4, "⠿")] := by decide +kernel
/-- `non_computer_braille_spans_ignored` -/
example : pairs (CompIndicator.precompute ⟨indication (t "⠿") ⟨.other, 0⟩, none⟩ (t "hello") [⟨t "italic", 0, 5⟩]) = [] := by decide +kernel

/-! ## uppercase.rs -/

def caps (spaces : String) : CapIndicator := { noCaps with upper := t "ABCDEF", letters := t "ABCDEFabcdef", spaces := t spaces }

/-- `precompute_indicator` -/
example : pairs ({ caps "" with capsletter := sign "⠇" }.precompute (t "Abc ")) = [(0, "⠇")] := by decide +kernel
/-- `precompute_end_indication` -/
example : pairs ({ caps "" with begcapsword := sign "⠇", endcapsword := sign "⠠" }.precompute (t "ABCa")) = [(0, "⠇"), (3, "⠠")] := by
  decide +kernel
/-- `begcaps_fallback_when_no_word_tier` -/
example : (["ABc", "aBC ", "ABC"].map fun i =>
    pairs ({ caps "" with capsletter := sign "⠇", begcaps := sign "⠠⠠", endcaps := sign "⠄" }.precompute (t i))) =
    [[(0, "⠠⠠"), (2, "⠄")], [(1, "⠠⠠"), (3, "⠄")], [(0, "⠠⠠"), (3, "⠄")]] := by decide +kernel
/-- `capsletter_repeats_when_no_word_or_mode_tier` -/
example : pairs ({ caps "" with capsletter := sign "⠇" }.precompute (t "ABC")) = [(0, "⠇"), (1, "⠇"), (2, "⠇")] := by decide +kernel
/-- `whole_word_passage_uses_begcaps_over_begcapsword` -/
example : (["ABC DEF", "ABC"].map fun i =>
    pairs ({ caps " " with begcapsword := sign "⠠", begcaps := sign "⠠⠠", endcaps := sign "⠄" }.precompute (t i))) =
    [[(0, "⠠⠠"), (7, "⠄")], [(0, "⠠")]] := by decide +kernel
/-- `hyphenated_segments_dont_count_as_separate_words` -/
example : pairs ({ caps " " with begcapsword := sign "⠠", begcaps := sign "⠠⠠", endcaps := sign "⠄" }.precompute (t "ABC-DEF")) =
    [(0, "⠠"), (4, "⠠")] := by decide +kernel
/-- `phrase_tier_used_once_length_threshold_reached` -/
example : (["AB CD", "AB CD EF"].map fun i => pairs ({ caps " " with
      begcapsword := sign "⠠", begcaps := sign "⠠⠠", endcaps := sign "⠄", begcapsphrase := sign "⠠⠠⠠", lenPhrase := 3 }.precompute (t i))) =
    [[(0, "⠠"), (3, "⠠")], [(0, "⠠⠠⠠"), (8, "⠄")]] := by decide +kernel

/-! ## position_constraints.rs -/

def flags (c : Constrainers) (input : String) (spans : List Span) (flag : Constraints → Nat → Bool) : Option (List Bool) :=
  (got (c.precompute (t input) spans)).map fun k => (List.range input.length).map (flag k)

def none' : Constrainers := ⟨none, none, none, none, none⟩

/-- `numeric_run` -/
example : flags { none' with numeric := some ⟨t "123", [], []⟩ } "ab12 a" [] (·.dontContract) = some [false, false, true, true, false, false] := by
  decide +kernel
/-- `midnum_extends_run` -/
example : flags { none' with numeric := some ⟨t "123", [], t "."⟩ } "1.2" [] (·.dontContract) = some [true, true, true] := by decide +kernel
/-- `computer_braille_span_sets_use_comp6` -/
example : flags none' "hello" [⟨t "computer_braille", 1, 4⟩] (·.useComp6) = some [false, true, true, true, false] ∧
    flags none' "hello" [⟨t "computer_braille", 1, 4⟩] (·.dontContract) = some [false, false, false, false, false] := by decide +kernel
/-- `capsletter_marks_next_cell_titlecase` -/
example : flags { none' with caps := some ⟨some (t "C"), none, none, []⟩ } "aCbc" [] (·.titlecase) = some [false, false, true, false] := by
  decide +kernel
/-- `begcapsword_marks_letters_until_non_letter_cell` -/
example : flags { none' with caps := some ⟨none, some (t "W"), none, t "abc"⟩ } "Wabc " [] (·.uppercase) =
    some [false, true, true, true, false] := by decide +kernel
/-- `begcapsword_stops_at_endcapsword` -/
example : flags { none' with caps := some ⟨none, some (t "W"), some (t "E"), t "abc"⟩ } "WabEc" [] (·.uppercase) =
    some [false, true, true, false, false] := by decide +kernel
/-- `begcapsword_checked_before_capsletter_when_dots_share_a_prefix` -/
example : flags { none' with caps := some ⟨some (t "C"), some (t "CC"), none, t "ab"⟩ } "CCab " [] (·.uppercase) =
      some [false, false, true, true, false] ∧
    flags { none' with caps := some ⟨some (t "C"), some (t "CC"), none, t "ab"⟩ } "CCab " [] (·.titlecase) =
      some [false, false, false, false, false] := by decide +kernel
/-- `numsign_marks_digit_cells_until_non_digit` -/
example : flags { none' with backNumeric := some ⟨some (t "N"), none, t "12", []⟩ } "N12a1" [] (·.preferDigit) =
    some [false, true, true, false, false] := by decide +kernel
/-- `nonumsign_ends_the_run_explicitly` -/
example : flags { none' with backNumeric := some ⟨some (t "N"), some (t "X"), t "12", []⟩ } "N1X2" [] (·.preferDigit) =
    some [false, true, false, false] := by decide +kernel
/-- `numsign_ignored_when_preceded_by_a_letter_cell` -/
example : flags { none' with backNumeric := some ⟨some (t "N"), none, t "12", t "x"⟩ } "xN12" [] (·.preferDigit) =
    some [false, false, false, false] := by decide +kernel

end Louis.Conform.IndicationTests
