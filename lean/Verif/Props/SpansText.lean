import Verif.Props.PipelineTotal
import Verif.Props.Demo

/-!
# C44: typeform spans refer to the text of the caller
-/

namespace Louis

/-- A pipeline without a main stage translates in the same way with all spans. -/
theorem no_primary_spans (cs : Case) (spans spans' : List Span) : ∀ (steps : List Transform)
    (_ : ∀ s ∈ steps, ∃ t, s = .pre t ∨ s = .post t) (input output : Text),
    Pipeline.Translates cs spans input steps output ↔ Pipeline.Translates cs spans' input steps output
  | [], _, input, output => Iff.rfl
  | s :: steps, h, input, output => by
    have ih := no_primary_spans cs spans spans' steps (fun x hx => h x (List.mem_cons_of_mem _ hx))
    have hs : ∀ mid, s.Translates cs spans input mid ↔ s.Translates cs spans' input mid := by
      intro mid
      obtain ⟨t, rfl | rfl⟩ := h s (List.mem_cons_self ..) <;> exact Iff.rfl
    constructor
    · rintro ⟨mid, h1, h2⟩
      exact ⟨mid, (hs mid).mp h1, (ih mid output).mp h2⟩
    · rintro ⟨mid, h1, h2⟩
      exact ⟨mid, (hs mid).mpr h1, (ih mid output).mpr h2⟩

/-- **C44** (where the spans are used).  A compiled pipeline consists of some stages that take no notice of the spans, the
main stage, and further stages that take no notice of the spans.  The spans are positions in the text the *main stage*
reads.  For forward translation the stages before it are the `correct` stage alone, and there is none if the table has no
`correct` rule for the direction.  -/
theorem C44_spans_main_stage (sys : Sys) (rules : List Anchored) (d : Direction) (steps : List Transform)
    (h : Pipeline.Compiles sys rules d steps) : ∃ before p after, steps = before ++ [.primary p] ++ after ∧
      MainStage sys (TableCtx.compile sys.alpha (allowedRules rules d)) d (allowedRules rules d) p ∧
      (d = .forward → (∀ r ∈ rules, r.rule.AllowedIn d → ∀ test action cons, r.rule ≠ .pass .correct test action cons) →
        before = []) ∧
      (d = .backward → (∀ r ∈ rules, r.rule.AllowedIn d → ∀ k test action cons, r.rule = .pass k test action cons →
        k = .correct) → before = []) ∧
      ∀ (cs : Case) (spans : List Span) (input output : Text), Pipeline.Translates cs spans input steps output ↔
        ∃ read ts, Pipeline.Translates cs [] input before read ∧ p.Traces cs read spans ts ∧
          Pipeline.Translates cs [] (outputOf ts) after output := by
  obtain ⟨correct, p, pass2, pass3, pass4, e, hp, g1, g2, g3, g4⟩ := C11_stages sys rules d steps h
  have key : ∀ before after : List Transform, (∀ s ∈ before, ∃ t, s = .pre t ∨ s = .post t) →
      (∀ s ∈ after, ∃ t, s = .pre t ∨ s = .post t) → ∀ (cs : Case) (spans : List Span) (input output : Text),
      Pipeline.Translates cs spans input (before ++ [.primary p] ++ after) output ↔
        ∃ read ts, Pipeline.Translates cs [] input before read ∧ p.Traces cs read spans ts ∧
          Pipeline.Translates cs [] (outputOf ts) after output := by
    intro before after hb ha cs spans input output
    rw [C11_composition]
    constructor
    · rintro ⟨mid, h1, h2⟩
      rw [C11_composition] at h1
      obtain ⟨read, h1, m, ⟨ts, h3, rfl⟩, rfl⟩ := h1
      exact ⟨read, ts, (no_primary_spans cs spans [] before hb _ _).mp h1, h3,
        (no_primary_spans cs spans [] after ha _ _).mp h2⟩
    · rintro ⟨read, ts, h1, h2, h3⟩
      refine ⟨outputOf ts, ?_, (no_primary_spans cs spans [] after ha _ _).mpr h3⟩
      rw [C11_composition]
      exact ⟨read, (no_primary_spans cs spans [] before hb _ _).mpr h1, outputOf ts, ⟨ts, h2, rfl⟩, rfl⟩
  have m1 : ∀ s ∈ correct, ∃ t, s = .pre t ∨ s = .post t := fun x hx => by
    obtain ⟨t, ht, -⟩ := g1.mem x hx; exact ⟨t, Or.inl ht⟩
  have m2 : ∀ s ∈ pass2 ++ pass3 ++ pass4, ∃ t, s = .pre t ∨ s = .post t := by
    intro x hx
    simp only [List.mem_append] at hx
    rcases hx with (hx | hx) | hx
    · obtain ⟨t, ht, -⟩ := g2.mem x hx; exact ⟨t, Or.inr ht⟩
    · obtain ⟨t, ht, -⟩ := g3.mem x hx; exact ⟨t, Or.inr ht⟩
    · obtain ⟨t, ht, -⟩ := g4.mem x hx; exact ⟨t, Or.inr ht⟩
  cases d with
  | forward =>
    have e' : steps = correct ++ [.primary p] ++ (pass2 ++ pass3 ++ pass4) := by
      rw [e]; simp [inOrder]
    refine ⟨correct, p, _, e', hp, fun _ hn => g1.absent hn, (fun h => by cases h), ?_⟩
    rw [e']
    exact key _ _ m1 m2
  | backward =>
    have e' : steps = (pass2 ++ pass3 ++ pass4).reverse ++ [.primary p] ++ correct.reverse := by
      rw [e]; simp [inOrder]
    refine ⟨_, p, _, e', hp, (fun h => by cases h), fun _ hn => ?_, ?_⟩
    · have i2 := g2.absent (fun r hr ha test action cons er => by cases hn r hr ha _ test action cons er)
      have i3 := g3.absent (fun r hr ha test action cons er => by cases hn r hr ha _ test action cons er)
      have i4 := g4.absent (fun r hr ha test action cons er => by cases hn r hr ha _ test action cons er)
      rw [i2, i3, i4]
      rfl
    · rw [e']
      exact key _ _ (fun s hs => m2 s (List.mem_reverse.mp hs)) (fun s hs => m1 s (List.mem_reverse.mp hs))

/-- **C44**, the part that is true of the code: the spans refer to the text of the caller when the table has no `correct`
rule for forward translation.  (Missing: tables with `correct` rules, for which it is false, see `C44_correct_shifts_wrong`.) -/
theorem C44_spans_of_caller_partial (sys : Sys) (rules : List Anchored) (steps : List Transform)
    (h : Pipeline.Compiles sys rules .forward steps)
    (hn : ∀ r ∈ rules, r.rule.AllowedIn .forward → ∀ test action cons, r.rule ≠ .pass .correct test action cons) :
    ∃ p after, MainStage sys (TableCtx.compile sys.alpha (allowedRules rules .forward)) .forward (allowedRules rules .forward) p ∧
      ∀ (cs : Case) (spans : List Span) (input output : Text), Pipeline.Translates cs spans input steps output ↔
        ∃ ts, p.Traces cs input spans ts ∧ Pipeline.Translates cs [] (outputOf ts) after output := by
  obtain ⟨before, p, after, rfl, hp, hb, -, hk⟩ := C44_spans_main_stage sys rules .forward steps h
  have := hb rfl hn
  subst this
  refine ⟨p, after, hp, fun cs spans input output => ?_⟩
  rw [hk]
  constructor
  · rintro ⟨_, ts, rfl, h1, h2⟩; exact ⟨ts, h1, h2⟩
  · rintro ⟨ts, h1, h2⟩; exact ⟨input, ts, rfl, h1, h2⟩

def spanTable : Text := "letter a 1
letter b 12
letter c 14
emphclass italic
emphletter italic 46
correct \"aa\" \"b\"".toList

/-- **C44 is false of the code**: with the rule `correct "aa" "b"`, the span that covers the `c` of `aac` leaves the `c`
without emphasis; the emphasis sign is written before the `c` when the span covers the second `a` instead. -/
theorem C44_correct_shifts_wrong :
    SourceTranslates demoSys ascii spanTable .forward [⟨"italic".toList, 2, 3⟩] "aac".toList "⠃⠉".toList ∧
    SourceTranslates demoSys ascii spanTable .forward [⟨"italic".toList, 1, 2⟩] "aac".toList "⠃⠨⠉".toList := by
  constructor
  · exact runSource_sound (fuel := 40) (by decide +kernel)
  · exact runSource_sound (fuel := 40) (by decide +kernel)

/-- Without the `correct` rule the sign is written before the character the span covers. -/
example : SourceTranslates demoSys ascii "letter a 1
letter c 14
emphclass italic
emphletter italic 46".toList .forward [⟨"italic".toList, 2, 3⟩] "aac".toList "⠁⠁⠨⠉".toList :=
  runSource_sound (fuel := 40) (by decide +kernel)

end Louis
