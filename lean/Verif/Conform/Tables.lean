import Verif.Conform.Base

/-! # The tests of src/translator/table.rs, src/translator.rs, src/lib.rs and src/hyphenation.rs -/

namespace Louis.Conform.TableTests

/-- The members of a class, sorted and without repetitions (Rust compares sets). -/
def insertNat (n : Nat) : List Nat → List Nat
  | [] => [n]
  | m :: ms => if n < m then n :: m :: ms else if n = m then m :: ms else m :: insertNat n ms

def set (s : String) : List Nat := s.toList.foldr (fun c l => insertNat c.toNat l) []

def members (cc : CharClasses) (c : CharClass) : List Nat := (cc.members c).foldr (fun c l => insertNat c.toNat l) []

def context (lines : List String) : Option TableCtx := (rulesOf lines).map (TableCtx.compile Char.isAlpha ·)

/-! ## table.rs -/

def classLines : List String := ["lowercase a 1", "lowercase b 12", "lowercase c 14", "base uppercase A a", "base uppercase B b", "space \\s 0",
  "litdigit 1 1", "attribute foo abc", "seqbeforechars xyz"]

/-- `character_classes` -/
example : (context classLines).map (fun c => [CharClass.letter, .lowercase, .uppercase, .space, .litdigit, .seqbeforechars, .user (t "foo")].map
    (members c.classes)) = some [set "abcAB", set "abc", set "AB", set " ", set "1", set "xyz", set "abc"] := by decide +kernel
/-- `dots_classes` -/
example : (context ["lowercase o 135", "lowercase ύ 5-13456", "sign ΄ 5", "attribute accent ΄", "pass2 @135[%accent]@13456 *@136"]).map
    (fun c => [CharClass.letter, .lowercase, .sign, .uppercase, .space, .litdigit, .seqbeforechars, .user (t "accent")].map
    (members c.dots)) = some [set "⠕", set "⠕", set "⠐", [], [], [], [], set "⠐"] := by decide +kernel
/-- `dots_classes_includes_alphabetic_always_rules` -/
example : (context ["lowercase h 125", "always le 246", "always sz 234-1235", "always -- 36"]).map (fun c => members c.dots .letter) =
    some (set "⠓⠪⠎⠗") := by decide +kernel

/-! ## translator.rs -/

/-- `resolve_implicit_dots` -/
example : got (CharDefs.resolve [] (t "xs")) = none ∧
    got (CharDefs.resolve ((CharDefs.insert [] 'a' (t "A")).insert 'h' (t "H")) (t "haha")) = some (t "HAHA") := by decide +kernel
/-- `display_table` -/
example : (rulesOf ["display a 1", "display \\s 0"]).map (fun rs => ["⠁", "⠀", "", "x"].map fun i =>
    String.ofList ((DisplayTable.compile rs .forward).translate (t i))) = some ["a", " ", "", "x"] := by decide +kernel
/-- `translate_with_display` -/
example : (rulesOf ["display A 1", "display \\s 0"]).bind (fun rs => (translates asciiCase .forward ["letter a 1", "space \\s 0"]
    ["a", " ", "a a"]).map fun os => os.map fun o => o.map fun o => String.ofList ((DisplayTable.compile rs .forward).translate (t o))) =
    some [some "A", some " ", some "A A"] := by decide +kernel

/-! ## lib.rs -/

/-- `translator_from_table_source` -/
example : runSource demoSys asciiCase 40 (t "space \\s 0\nletter a 1\nletter b 12\n") .forward [] (t "ab") = some (t "⠁⠃") := by
  decide +kernel
/-- `translator_from_table_source_rejects_include` -/
example : ∃ e, translatorFromSource demoSys (t "include en-us-g1.ctb") .forward = .error e ∧ e = .includesNotSupportedInMemory := by
  refine ⟨_, ?_, rfl⟩
  have h : (match parseTable (t "include en-us-g1.ctb") none with
      | .ok rules => some ((anchor rules).any fun r => match r.rule with | .incl _ => true | _ => false)
      | .error _ => none) = some true := by decide +kernel
  unfold translatorFromSource fromTableSource
  split at h
  · rename_i rules hr
    simp only [Option.some.injEq] at h
    rw [hr]
    exact if_pos h
  · cases h

def tr (i o : String) : Resolved := Resolved.new (t i) (t o) 0 .main none

/-- `output_positions` -/
example : outputPositions [tr "abc" "⠁⠃⠇"] = [0, 1, 2] ∧ outputPositions [tr "foo" "⠁"] = [0, 0, 0] ∧ outputPositions [tr "foo" "⠁⠃"] = [0, 1, 1] ∧
    outputPositions [tr "a" "⠁⠃⠇"] = [0] ∧ outputPositions [tr "abc" "⠁⠃⠇", tr "abc" "⠁⠃⠇"] = [0, 1, 2, 3, 4, 5] ∧
    outputPositions [tr "foo" "⠁", tr "abc" "⠁⠃⠇"] = [0, 0, 0, 1, 2, 3] ∧
    outputPositions [tr "a" "⠁⠃⠇", tr "abc" "⠁⠃⠇"] = [0, 3, 4, 5] := by decide +kernel
/-- `input_positions` -/
example : inputPositions [tr "abc" "⠁⠃⠇"] = [0, 1, 2] ∧ inputPositions [tr "foo" "⠁"] = [0] ∧ inputPositions [tr "foo" "⠁⠃"] = [0, 1] ∧
    inputPositions [tr "a" "⠁⠃⠇"] = [0, 0, 0] ∧ inputPositions [tr "abc" "⠁⠃⠇", tr "abc" "⠁⠃⠇"] = [0, 1, 2, 3, 4, 5] ∧
    inputPositions [tr "foo" "⠁", tr "abc" "⠁⠃⠇"] = [0, 3, 4, 5] ∧
    inputPositions [tr "a" "⠁⠃⠇", tr "abc" "⠁⠃⠇"] = [0, 0, 0, 1, 2, 3] := by decide +kernel

/-! ## hyphenation.rs -/

def dic (s : String) : Option Hyphenation := got (parseDic (lines (t s)))
def breaks (s : String) (word : String) : Option (List Bool) := (dic s).bind fun h => got (h.breakPoints (t word))

/-- `reads_hyphenmin_header` -/
example : (dic "UTF-8\nLEFTHYPHENMIN 2\nRIGHTHYPHENMIN 3\n.ab3a\n").map (fun h => (h.leftMin, h.rightMin)) = some (2, 3) := by decide +kernel
/-- `defaults_when_header_absent` -/
example : (dic "UTF-8\n.ab3a\n").map (fun h => (h.leftMin, h.rightMin)) = some (1, 1) := by decide +kernel
/-- `huge_hyphenmin_does_not_overflow` -/
example : breaks "UTF-8\nLEFTHYPHENMIN 18446744073709551615\n.ab3a\n" "ab" = some [false] := by decide +kernel
/-- `rejects_malformed_header_value` -/
example : dic "UTF-8\nLEFTHYPHENMIN two\n.ab3a\n" = none := by decide +kernel
/-- `rejects_iso8859_1_encoding` -/
example : dic "ISO8859-1\n.ab3a\n" = none := by decide +kernel
/-- `finds_a_break` -/
example : breaks "UTF-8\nLEFTHYPHENMIN 1\nRIGHTHYPHENMIN 1\n.ab3a\n" "aba" = some [false, true] := by decide +kernel
/-- `respects_minima` -/
example : breaks "UTF-8\nLEFTHYPHENMIN 2\nRIGHTHYPHENMIN 2\n.ab3a\n" "aba" = some [false, false] := by decide +kernel
/-- `no_match_means_no_breaks` -/
example : breaks "UTF-8\ns1b\n" "fff" = some [false, false] := by decide +kernel
/-- `skips_comments_and_blank_lines` -/
example : breaks "UTF-8\n# a comment\n\n% also a comment\n.ab3a\n" "aba" = some [false, true] := by decide +kernel
/-- `short_word_has_no_gaps` -/
example : breaks "UTF-8\n.ab3a\n" "" = some [] ∧ breaks "UTF-8\n.ab3a\n" "a" = some [] := by decide +kernel

end Louis.Conform.TableTests
