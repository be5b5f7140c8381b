import Verif.Props.SameLines
import Verif.Props.Words

/-!
# C76, C77: a concrete table, and what is false of the code
-/

namespace Louis

theorem spells_each {lower : Char → List Char} {consumed word : Text} (h : Spells lower consumed word) :
    ∀ l ∈ word, ∃ c ∈ consumed, lower c = [l] := by
  induction h with
  | nil => intro l hl; cases hl
  | cons hc _ ih =>
    intro l hl
    rcases List.mem_cons.1 hl with rfl | hl
    · exact ⟨_, List.mem_cons_self .., hc⟩
    · obtain ⟨c, h1, h2⟩ := ih l hl
      exact ⟨c, List.mem_cons_of_mem _ h1, h2⟩

/-- A word does not occur in a text that lacks one of its letters. -/
theorem not_occurs {lower : Char → List Char} {text word : Text} {l : Char} (hl : l ∈ word) (h : ∀ c ∈ text, lower c ≠ [l]) :
    ¬Occurs lower text word := by
  rintro ⟨before, consumed, after, rfl, hs⟩
  obtain ⟨c, hc, e⟩ := spells_each hs l hl
  exact h c (by simp [hc]) e

def Rule.isPass : Rule → Bool
  | .pass _ _ _ _ => true
  | _ => false

/-- The lines of `wordTable` that mention the letter `b` besides its definition. -/
def mentionsB (r : Anchored) : Bool := r.rule.onlyTranslates && (r.rule.characters.getD []).contains 'b'

/-- Non-vacuity: there are three such lines, ... -/
example : (wordRules.filter mentionsB).length = 3 := by decide +kernel

instance (r : Anchored) (alpha : Char → Bool) (d : Direction) (rules : List Anchored) : Decidable (MayBeLeftOut alpha d rules r) := by
  unfold MayBeLeftOut; infer_instance

/-- ... which may be left out, ... -/
theorem wordRules_unused : ∀ r ∈ wordRules, (!mentionsB r) = false → MayBeLeftOut demoSys.alpha .forward wordRules r := by
  decide +kernel

/-- ... so that the table without them translates every text without the letter `b` in the same way. -/
example (steps : List Transform) (h : Pipeline.Compiles demoSys wordRules .forward steps) :
    ∃ steps', Pipeline.Compiles demoSys (wordRules.filter (!mentionsB ·)) .forward steps' ∧ ∀ spans input,
      (∀ c ∈ input, asciiCase.lower c ≠ ['b']) →
      ∀ tss, Pipeline.Traces asciiCase spans input steps tss ↔ Pipeline.Traces asciiCase spans input steps' tss := by
  obtain ⟨steps', h1, h2⟩ := C76_unused_lines demoSys .forward wordRules (!mentionsB ·) wordRules_unused steps h
  refine ⟨steps', h1, fun spans input hb => h2 asciiCase spans input fun text ht r _ hk word hw => ?_⟩
  have hno : ∀ r ∈ wordRules, r.rule.isPass = false := by decide +kernel
  have := mainInput_self h (fun r hr k test action cons e => by have := hno r hr; rw [e] at this; cases this) ht
  subst this
  have hw' : r.rule.characters = some word := hw
  simp only [mentionsB, hw', Option.getD_some, Bool.not_eq_false', Bool.and_eq_true, List.contains_iff_mem] at hk
  exact not_occurs hk.2 hb

/-- **C76 is false of the code** for `always` lines over letters: their cells become letters for the passes over cells, so that a line
for a word that does not occur changes the translation. -/
theorem C76_letter_cells_wrong :
    SourceTranslates demoSys asciiCase "lowercase a 1\nsign % 146\npass2 $l @12\n".toList .forward [] "%".toList "⠩".toList ∧
      SourceTranslates demoSys asciiCase "lowercase a 1\nsign % 146\npass2 $l @12\nalways zz 146\n".toList .forward [] "%".toList
        "⠃".toList :=
  ⟨runSource_sound (fuel := 40) (by decide +kernel), runSource_sound (fuel := 40) (by decide +kernel)⟩

/-- **C76 is false of the code** in backward direction, too: after a capital sign everything up to the first cell that is not that of
a letter is in capitals. -/
theorem C76_backward_wrong :
    SourceTranslates demoSys asciiCase "lowercase a 1\nlowercase b 12\nsign % 146\nalways c% 14\nbegcapsword 6\n".toList .backward []
        "⠠⠁⠩⠃".toList "A%b".toList ∧
      SourceTranslates demoSys asciiCase "lowercase a 1\nlowercase b 12\nsign % 146\nalways c% 14\nbegcapsword 6\nalways zz 146-146\n".toList
        .backward [] "⠠⠁⠩⠃".toList "A%B".toList :=
  ⟨runSource_sound (fuel := 40) (by decide +kernel), runSource_sound (fuel := 40) (by decide +kernel)⟩

/-- Two lines for the same word cannot be exchanged. -/
theorem C77_same_word_order :
    SourceTranslates demoSys asciiCase "lowercase a 1\nsyllable aa 12\nlargesign aa 14\n".toList .forward [] "aa".toList "⠃".toList ∧
      SourceTranslates demoSys asciiCase "lowercase a 1\nlargesign aa 14\nsyllable aa 12\n".toList .forward [] "aa".toList "⠉".toList :=
  ⟨runSource_sound (fuel := 40) (by decide +kernel), runSource_sound (fuel := 40) (by decide +kernel)⟩

/-- ... but lines for different words can: an instance of C77. -/
example (sys : Sys) (a b : List Anchored) (i j : Nat) (dots dots' : Cells) (steps : List Transform)
    (h : Pipeline.Compiles sys (a ++ ⟨.syllable "ab".toList (.explicit dots), i⟩ :: ⟨.largesign "abc".toList dots', j⟩ :: b) .forward steps) :
    ∃ steps', Pipeline.Compiles sys (a ++ ⟨.largesign "abc".toList dots', j⟩ :: ⟨.syllable "ab".toList (.explicit dots), i⟩ :: b) .forward steps' ∧
      ∀ cs spans input tss, Pipeline.Traces cs spans input steps tss ↔ Pipeline.Traces cs spans input steps' tss := by
  refine C77_exchange sys .forward a b _ _ (.inl rfl) ?_ steps h
  intro word hw e
  have h1 : some "ab".toList = some word := hw
  have h2 : some "abc".toList = some word := e
  rw [← h1] at h2
  revert h2
  decide

/-- ... also two `always` lines over letters, whatever the table does with cells that are letters. -/
example (sys : Sys) (a b : List Anchored) (i j : Nat) (steps : List Transform) (dots dots' : Cells) (hd : dots.toText ≠ dots'.toText)
    (h : Pipeline.Compiles sys (a ++ ⟨.text .always "ab".toList (.explicit dots) ⟨false, false, false⟩ [], i⟩ ::
      ⟨.text .always "abc".toList (.explicit dots') ⟨false, false, false⟩ [], j⟩ :: b) .backward steps) :
    ∃ steps', Pipeline.Compiles sys (a ++ ⟨.text .always "abc".toList (.explicit dots') ⟨false, false, false⟩ [], j⟩ ::
      ⟨.text .always "ab".toList (.explicit dots) ⟨false, false, false⟩ [], i⟩ :: b) .backward steps' ∧
      ∀ cs spans input tss, Pipeline.Traces cs spans input steps tss ↔ Pipeline.Traces cs spans input steps' tss := by
  refine C77_exchange sys .backward a b _ _ (.inl rfl) ?_ steps h
  intro word hw e
  have h1 : some dots.toText = some word := hw
  have h2 : some dots'.toText = some word := e
  rw [← h1] at h2
  injection h2 with h2
  exact hd h2.symm

end Louis
