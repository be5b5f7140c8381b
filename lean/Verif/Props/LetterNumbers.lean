import Verif.Props.LettersBack

/-!
# C86, C87: uncontracted braille with capitals and numbers, for table texts
-/

namespace Louis

/-- **C86** for table texts. -/
theorem C86_source (sys : Sys) (cs : Case) (table : Text) (rules : List (Rule × Loc)) (hp : parseTable table none = .ok rules)
    (sign : Char) (num : Option Char) (hl : LetterByLetter sign num (anchor rules)) (text : Text) (code : Char → Text)
    (hcode : ∀ c ∈ text, Spelt (anchor rules) c (code c)) (upper : Char → Bool)
    (hupper : ∀ c ∈ text, upper c = true ↔ ∃ r ∈ anchor rules, r.rule.Raises c) (digit : Char → Bool)
    (hdigit : ∀ c ∈ text, digit c = true ↔ ∃ r ∈ anchor rules, r.rule.IsDigit c) (braille : Text)
    (h : SourceTranslates sys cs table .forward [] text braille) :
    braille = spelledOut sign num upper digit code false text := by
  obtain ⟨steps, e, ht⟩ := h
  unfold translatorFromSource at e
  rw [hp] at e
  simp only [fromTableSource] at e
  split at e
  · cases e
  · split at e
    · cases e
    · next e' =>
      cases e
      exact C86_written sys _ sign num hl steps (compile_compiles e') cs text code hcode upper hupper digit hdigit braille ht

/-! ## An example -/

def numberTable : String :=
  "space \\s 0\nhyphen - 36\nlowercase a 1\nlowercase b 12\nletter k 13\nlitdigit 1 1\nlitdigit 2 12\ndigit 2 12\nlitdigit 3 14\n" ++
  "base uppercase A a\nbase uppercase B b\ncapsletter 6\nnumsign 3456\n"

def numberRules : List Anchored := anchor ((parseTable numberTable.toList none).toOption.getD [])

theorem numberTable_spells : LetterByLetter '⠠' (some '⠼') numberRules := checkSpelling_sound (by decide +kernel)

theorem numberTable_rules : (parseTable numberTable.toList none).toOption.isSome = true := by decide +kernel

/-- The braille of the characters of the table. -/
def numberCode (c : Char) : Text := ((speltOf numberRules).find? (·.1 == c)).elim [] (·.2)

/-- The characters that the lines make digits. -/
def writtenDigits (rules : List Anchored) : Text := rules.filterMap fun r => match r.rule with
  | .charDef .litdigit c _ _ => some c
  | _ => none

theorem mem_writtenDigits {rules : List Anchored} {c : Char} : c ∈ writtenDigits rules ↔ ∃ r ∈ rules, r.rule.IsDigit c := by
  unfold writtenDigits
  rw [List.mem_filterMap]
  constructor
  · rintro ⟨r, hr, h⟩
    split at h
    · next c' cells cons e => cases h; exact ⟨r, hr, cells, cons, e⟩
    · cases h
  · rintro ⟨r, hr, cells, cons, e⟩
    exact ⟨r, hr, by rw [e]⟩

theorem numberRules_spelt : ∀ c ∈ " -abk123AB".toList, Spelt numberRules c (numberCode c) := by
  have key : " -abk123AB".toList.all (fun c => numberRules.any fun r => match r.rule with
    | .charDef _ x cells _ => x == c && cells.toText == numberCode c
    | .base _ x b => x == c && numberRules.any fun q => match q.rule with
      | .charDef _ y cells _ => y == b && cells.toText == numberCode c
      | _ => false
    | _ => false) = true := by decide +kernel
  intro c hc
  obtain ⟨r, hm, h⟩ := List.any_eq_true.1 (List.all_eq_true.1 key c hc)
  split at h
  · next k x cells cons e =>
    rw [Bool.and_eq_true] at h
    rw [← eq_of_beq h.2, ← eq_of_beq h.1]
    exact .direct hm (by rw [e]; exact .inl ⟨_, _, _, rfl, rfl⟩)
  · next name x b e =>
    rw [Bool.and_eq_true] at h
    obtain ⟨q, hq, h2⟩ := List.any_eq_true.1 h.2
    split at h2
    · next k y cells cons e' =>
      rw [Bool.and_eq_true] at h2
      rw [← eq_of_beq h2.1] at e
      rw [← eq_of_beq h2.2, ← eq_of_beq h.1]
      exact .derived hm e hq (by rw [e']; exact .inl ⟨_, _, _, rfl, rfl⟩)
    · cases h2
  · cases h

theorem numberRules_raised : ∀ c, c ∈ "AB".toList ↔ ∃ r ∈ numberRules, r.rule.Raises c := by
  intro c
  have key : raisedOf numberRules = "AB".toList := by decide +kernel
  constructor
  · intro hc
    have key : "AB".toList.all (fun c => numberRules.any fun r => match r.rule with
      | .base name x _ => name == "uppercase".toList && x == c
      | _ => false) = true := by decide +kernel
    obtain ⟨r, hr, h⟩ := List.any_eq_true.1 (List.all_eq_true.1 key c hc)
    refine ⟨r, hr, ?_⟩
    split at h
    · next name x b e =>
      rw [Bool.and_eq_true] at h
      rw [e, ← eq_of_beq h.2, show name = "uppercase".toList from eq_of_beq h.1]
      exact .base
    · cases h
  · rintro ⟨r, hr, h⟩
    rw [← key]
    exact mem_raisedOf hr h

/-- The theorem applies to the table of the example, and to every text in its characters. -/
example (text braille : Text) (ht : ∀ c ∈ text, c ∈ " -abk123AB".toList)
    (h : SourceTranslates demoSys asciiCase numberTable.toList .forward [] text braille) :
    braille = spelledOut '⠠' (some '⠼') (fun c => "AB".toList.contains c) (fun c => "123".toList.contains c) numberCode false text := by
  cases e : parseTable numberTable.toList none with
  | error x => have := numberTable_rules; rw [e] at this; cases this
  | ok rules =>
    have hr : anchor rules = numberRules := by unfold numberRules; rw [e]; rfl
    refine C86_source demoSys asciiCase _ rules e '⠠' _ (hr ▸ numberTable_spells) text _ ?_ _ ?_ _ ?_ braille h
    · rw [hr]
      exact fun c hc => numberRules_spelt c (ht c hc)
    · rw [hr]
      intro c _
      rw [← numberRules_raised, List.contains_eq_mem, decide_eq_true_iff]
    · rw [hr]
      intro c _
      have key : writtenDigits numberRules = "123".toList := by decide +kernel
      rw [← mem_writtenDigits, key, List.contains_eq_mem, decide_eq_true_iff]

/-- What is written for a text. -/
example : SourceTranslates demoSys asciiCase numberTable.toList .forward [] "Ab 12-3a1".toList "⠠⠁⠃⠀⠼⠁⠃⠤⠼⠉⠁⠼⠁".toList ∧
    spelledOut '⠠' (some '⠼') (fun c => "AB".toList.contains c) (fun c => "123".toList.contains c) numberCode false "Ab 12-3a1".toList =
      "⠠⠁⠃⠀⠼⠁⠃⠤⠼⠉⠁⠼⠁".toList := ⟨runSource_sound (fuel := 60) (by decide +kernel), by decide +kernel⟩

/-! ## Reading it back -/

/-- A table in which the digits have cells of their own. -/
def ownTable : String :=
  "space \\s 0\nhyphen - 36\nlowercase a 1\nlowercase b 12\nletter k 13\nlitdigit 1 16\nlitdigit 2 126\ndigit 2 126\nlitdigit 3 146\n" ++
  "base uppercase A a\nbase uppercase B b\ncapsletter 6\nnumsign 3456\n"

def ownRules : List Anchored := anchor ((parseTable ownTable.toList none).toOption.getD [])

theorem ownTable_readable : ReadableBack '⠠' (some '⠼') ownRules := checkLetters_sound (by decide +kernel)

theorem ownTable_rules : (parseTable ownTable.toList none).toOption.isSome = true := by decide +kernel

/-- Non-vacuity of C87: what the table writes for a text, and what is read back. -/
example : SourceTranslates demoSys asciiCase ownTable.toList .forward [] "a12Bk3-1 2".toList "⠁⠼⠡⠣⠠⠃⠅⠼⠩⠤⠼⠡⠀⠼⠣".toList ∧
    SourceTranslates demoSys asciiCase ownTable.toList .backward [] "⠁⠼⠡⠣⠠⠃⠅⠼⠩⠤⠼⠡⠀⠼⠣".toList "a12Bk3-1 2".toList :=
  ⟨runSource_sound (fuel := 60) (by decide +kernel), runSource_sound (fuel := 60) (by decide +kernel)⟩

/-- The theorem applies to the table of the example, and to every text in its characters. -/
example (text braille back : Text) (ht : ∀ c ∈ text, c ∈ " -abk123AB".toList)
    (h : SourceTranslates demoSys asciiCase ownTable.toList .forward [] text braille)
    (h' : SourceTranslates demoSys asciiCase ownTable.toList .backward [] braille back) : back = text := by
  cases e : parseTable ownTable.toList none with
  | error x => have := ownTable_rules; rw [e] at this; cases this
  | ok rules =>
    have hr : anchor rules = ownRules := by unfold ownRules; rw [e]; rfl
    have cells : ∀ l : Text, l.all (fun c => decide (c.toNat < 0x2800)) = true → ∀ cell : Cell, cell.toUnicode ∉ l := by
      intro l key cell hc
      have := List.all_eq_true.1 key _ hc
      rw [toNat_toUnicode] at this
      have this := of_decide_eq_true this
      have hrange := C31_range cell
      cases e : cell.any Dot.isVirtual with
      | false => have := (hrange.1 e).1; omega
      | true => have := (hrange.2 e).1; omega
    refine C87_source demoSys asciiCase asciiCase_cells _ rules e '⠠' _ (hr ▸ ownTable_readable) ?_ ?_ text ?_ ?_ braille back h h'
    · rw [hr]
      intro r hm cell hc
      exact cells (raisedOf ownRules) (by decide +kernel) cell (mem_raisedOf hm hc)
    · rw [hr]
      intro r hm cell hc
      exact cells (writtenDigits ownRules) (by decide +kernel) cell (mem_writtenDigits.2 ⟨r, hm, hc⟩)
    · rw [hr]
      intro c hc
      have key : " -abk123AB".toList.all (fun c => ownRules.any fun r => match r.rule with
        | .charDef _ x cells _ => x == c
        | .base _ x b => x == c && ownRules.any fun q => match q.rule with | .charDef _ y _ _ => y == b | _ => false
        | _ => false) = true := by decide +kernel
      obtain ⟨r, hm, h⟩ := List.any_eq_true.1 (List.all_eq_true.1 key c (ht c hc))
      split at h
      · next k x cells cons e =>
        rw [← eq_of_beq h]
        exact ⟨_, .direct hm (by rw [e]; exact .inl ⟨_, _, _, rfl, rfl⟩)⟩
      · next name x b e =>
        rw [Bool.and_eq_true] at h
        obtain ⟨q, hq, h2⟩ := List.any_eq_true.1 h.2
        rw [← eq_of_beq h.1]
        split at h2
        · next e' =>
          rw [← eq_of_beq h2] at e
          exact ⟨_, .derived hm e hq (by rw [e']; exact .inl ⟨_, _, _, rfl, rfl⟩)⟩
        · cases h2
      · cases h
    · rw [hr]
      rintro c - ⟨r, hm, hc⟩ low ⟨dots, hs, q, hq, hd⟩
      have key : (raisedOf ownRules).all (fun c => (speltOf ownRules).all fun x => x.1 != c ||
        (defsOf ownRules).all fun y => y.2 != x.2 || asciiCase.upperChar y.1 == [c]) = true := by decide +kernel
      have := List.all_eq_true.1 (List.all_eq_true.1 key _ (mem_raisedOf hm hc)) _ (mem_speltOf hs)
      simp only [bne_self_eq_false, Bool.false_or, List.all_eq_true] at this
      have := this _ (mem_defsOf hq hd)
      simpa using this

/-! ## Digits with the cells of letters -/

/-- Such a text may be read back. -/
example : SourceTranslates demoSys asciiCase numberTable.toList .backward [] "⠼⠁⠃⠀⠠⠁⠀⠼⠃".toList "12 A 2".toList :=
  runSource_sound (fuel := 60) (by decide +kernel)

/-- The sign for numbers is not read directly after a letter. -/
theorem C86_after_letter_wrong :
    SourceTranslates demoSys asciiCase numberTable.toList .forward [] "a1".toList "⠁⠼⠁".toList ∧
      SourceTranslates demoSys asciiCase numberTable.toList .backward [] "⠁⠼⠁".toList "aa".toList :=
  ⟨runSource_sound (fuel := 60) (by decide +kernel), runSource_sound (fuel := 60) (by decide +kernel)⟩

/-- A letter directly after a number is read as a digit. -/
theorem C86_after_number_wrong :
    SourceTranslates demoSys asciiCase numberTable.toList .forward [] "1a".toList "⠼⠁⠁".toList ∧
      SourceTranslates demoSys asciiCase numberTable.toList .backward [] "⠼⠁⠁".toList "11".toList :=
  ⟨runSource_sound (fuel := 60) (by decide +kernel), runSource_sound (fuel := 60) (by decide +kernel)⟩

/-- If the digits stand above the letters in the table, letters are read as digits. -/
theorem C86_order_wrong :
    let table := "space \\s 0\nlitdigit 1 1\nlowercase a 1\nbase uppercase A a\ncapsletter 6\nnumsign 3456\n".toList
    SourceTranslates demoSys asciiCase table .forward [] "1 a".toList "⠼⠁⠀⠁".toList ∧
      SourceTranslates demoSys asciiCase table .backward [] "⠼⠁⠀⠁".toList "1 1".toList :=
  ⟨runSource_sound (fuel := 60) (by decide +kernel), runSource_sound (fuel := 60) (by decide +kernel)⟩

end Louis
