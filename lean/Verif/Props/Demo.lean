import Verif.Model.Source
import Verif.Props.Origins
import Verif.Lemmas.DecEq

/-!
# Translations computed from the text of a table, for the concrete cases beside the theorems
-/

namespace Louis

/-- The table text gives a translator that translates `input` to `output`: `Translator::from_table_source`, then
`translate` (or `translate_with_options` with the spans). -/
def SourceTranslates (sys : Sys) (cs : Case) (table : Text) (d : Direction) (spans : List Span) (input output : Text) : Prop :=
  ∃ steps, translatorFromSource sys table d = .ok steps ∧ Pipeline.Translates cs spans input steps output

/-- The translation, computed with a bound on the number of rounds. -/
def runSource (sys : Sys) (cs : Case) (fuel : Nat) (table : Text) (d : Direction) (spans : List Span) (input : Text) :
    Option Text :=
  match parseTable table none with
  | .error _ => none
  | .ok rules =>
    if (anchor rules).any (fun r => match r.rule with | .incl _ => true | _ => false) then none
    else runText sys cs fuel (anchor rules) d spans input

theorem runSource_sound {sys : Sys} {cs : Case} {fuel : Nat} {table : Text} {d : Direction} {spans : List Span}
    {input output : Text} (h : runSource sys cs fuel table d spans input = some output) :
    SourceTranslates sys cs table d spans input output := by
  unfold runSource at h
  split at h
  · cases h
  · next rules hp =>
    split at h
    · cases h
    · next hi =>
      obtain ⟨steps, tss, h1, -, -, h2⟩ := runText_sound h
      refine ⟨steps, ?_, h2⟩
      simp only [translatorFromSource, hp, fromTableSource]
      split
      · next hh => exact absurd hh hi
      · rw [h1]

/-- The translation of the text with the ASCII table of cases and no hyphenation files. -/
def demo (table : String) (d : Direction) (input : String) : Option Text :=
  runSource demoSys ascii 40 table.toList d [] input.toList

theorem demo_sound {table : String} {d : Direction} {input : String} {output : Text} (h : demo table d input = some output) :
    SourceTranslates demoSys ascii table.toList d [] input.toList output := runSource_sound h

end Louis
