import Verif.Props.Passes
import Verif.Props.ExplainedMain
import Verif.Props.Demo
import Verif.Props.PipelineTotal
import Verif.Props.Words

/-!
# The hypotheses of C71 and C56 are met
-/

namespace Louis

/-- The test `"a"[$d.]"b"` and the action `#1=3@5*`: on the text `a12bc` with `1` and `2` digits, the digits between `a` and `b` are kept behind a
cell. -/
example :
    let classes : CharClasses := [(.digit, '1'), (.digit, '2')]
    let test : List TestInstr := [.string "a".toList, .replace [.attributes [.cls .digit] (some .oneOrMore)], .string "b".toList]
    let action : List ActionInstr := [.assignment 1 3, .dots "⠐".toList, .replace]
    (∃ p, compilePattern classes [] .main .translation ⟨.other, 7⟩ test action = .ok p) ∧ TestsWritten test ∧ NoStep action ∧
      stretchOf classes (fun _ => none) true test "a12bc".toList = some ⟨"a".toList, "12".toList, "b".toList⟩ ∧
      Writes [] "12".toList action "⠐12".toList ∧ stretchOf classes (fun _ => none) true test "abc".toList = none := by
  refine ⟨⟨_, rfl⟩, ?_, ?_, by decide +kernel, ?_, by decide +kernel⟩
  · simp [TestsWritten, TestInstr.Written, Quantifier.Sound]
  · intro a ha v
    simp only [List.mem_cons, List.not_mem_nil, or_false] at ha
    rcases ha with rfl | rfl | rfl <;> exact ⟨(fun h => nomatch h), (fun h => nomatch h)⟩
  · exact .assignment _ _ _ _ (.dots "⠐".toList _ _ (.replace _ _ .nil))

/-- A table with letters, a contraction, a sign and a pass; a translation with all of them. -/
def explainedRules : List Anchored :=
  [⟨.charDef .lowercase 'a' [[.d1]] .none, 0⟩, ⟨.charDef .uppercase 'A' [[.d1]] .none, 1⟩, ⟨.charDef .lowercase 'b' [[.d1, .d2]] .none, 2⟩,
   ⟨.capsletter [[.d6]] .none, 3⟩, ⟨.text .always "ab".toList (.explicit [[.d3, .d4, .d5]]) .none [], 4⟩,
   ⟨.pass .pass2 [.dots "⠃".toList] [.dots "⠃⠃".toList] .none, 5⟩]

/-- The hypotheses of C56 are met: the translation of `Abb`, with a capital sign, a contraction and a second pass. -/
example : ∃ steps, Pipeline.Compiles demoSys explainedRules .forward steps ∧
    Pipeline.Translates asciiCase [] "Abb".toList steps "⠠⠜⠃⠃".toList := by
  obtain ⟨steps, tss, h1, -, -, h2⟩ := runText_sound (sys := demoSys) (cs := asciiCase) (fuel := 40) (rules := explainedRules) (d := .forward)
    (spans := []) (input := "Abb".toList) (output := "⠠⠜⠃⠃".toList) (by decide +kernel)
  exact ⟨steps, compile_compiles h1, h2⟩

end Louis
