import Verif.Spec.Pipeline
import Verif.Lemmas.Pipeline
import Verif.Props.Scanner
import Verif.Props.RulesTrace
import Verif.Props.MainMore

/-!
# C09, C11, C12: the pipeline
-/

namespace Louis

open Regexp (Fault)

/-! ## The stages of a pipeline -/

theorem isDirection_iff (r : Rule) (d : Direction) : r.isDirection d = true ↔ r.AllowedIn d := by
  unfold Rule.isDirection Rule.AllowedIn
  cases d <;> cases h1 : r.cons.nofor <;> cases h2 : r.cons.noback <;> simp

theorem mem_allowed {rules : List Anchored} {d : Direction} {r : Anchored} :
    r ∈ allowedRules rules d ↔ r ∈ rules ∧ r.rule.AllowedIn d := by
  unfold allowedRules
  rw [List.mem_filter, isDirection_iff]

/-- The parts of a compiled pipeline. -/
theorem compile_parts {sys : Sys} {rules : List Anchored} {d : Direction} {steps : List Transform}
    (h : Pipeline.compile sys rules d = .ok steps) : ∃ correct p pass2 pass3 pass4,
      compileStage (TableCtx.compile sys.alpha rules) d .pre .pre (passRules .correct (allowedRules rules d)) = .ok correct ∧
      Primary.compile sys (TableCtx.compile sys.alpha (allowedRules rules d)) d (allowedRules rules d) = .ok p ∧
      compileStage (TableCtx.compile sys.alpha rules) d .post1 .post (passRules .pass2 (allowedRules rules d)) = .ok pass2 ∧
      compileStage (TableCtx.compile sys.alpha rules) d .post2 .post (passRules .pass3 (allowedRules rules d)) = .ok pass3 ∧
      compileStage (TableCtx.compile sys.alpha rules) d .post3 .post (passRules .pass4 (allowedRules rules d)) = .ok pass4 ∧
      steps = inOrder d (correct ++ [.primary p] ++ pass2 ++ pass3 ++ pass4) := by
  unfold Pipeline.compile at h
  simp only at h
  split at h
  · cases h
  · rename_i correct h1
    split at h
    · cases h
    · rename_i p h2
      split at h
      · cases h
      · rename_i pass2 h3
        split at h
        · cases h
        · rename_i pass3 h4
          split at h
          · cases h
          · rename_i pass4 h5
            injection h with h
            exact ⟨correct, p, pass2, pass3, pass4, h1, h2, h3, h4, h5, by cases d <;> exact h.symm⟩

/-- The multipass rules of one opcode that may be used in a direction, in the order of the table. -/
def rulesOf (rules : List Anchored) (d : Direction) (k : PassKind) : List PassRule := passRules k (allowedRules rules d)

theorem rulesOf_nil (rules : List Anchored) (d : Direction) (k : PassKind) : rulesOf rules d k = [] ↔
    ∀ r ∈ rules, r.rule.AllowedIn d → ∀ test action cons, r.rule ≠ .pass k test action cons := by
  unfold rulesOf passRules
  rw [List.filterMap_eq_nil_iff]
  constructor
  · intro h r hr ha test action cons e
    have := h r (mem_allowed.mpr ⟨hr, ha⟩)
    rw [e] at this
    simp at this
  · intro h r hr
    obtain ⟨hr, ha⟩ := mem_allowed.mp hr
    have := h r hr ha
    cases e : r.rule with
    | pass k' test action cons =>
      simp only
      split
      · rename_i hk
        subst hk
        exact absurd e (this _ _ _)
      · rfl
    | _ => rfl

/-- What an opcode contributes to a pipeline: nothing if it has no rule that may be used in the direction, otherwise one step,
compiled from these rules. -/
structure StageOf (ctx : TableCtx) (rules : List Anchored) (d : Direction) (k : PassKind) (stage : Stage)
    (wrap : MultipassTable → Transform) (l : List Transform) : Prop where
  absent : (∀ r ∈ rules, r.rule.AllowedIn d → ∀ test action cons, r.rule ≠ .pass k test action cons) → l = []
  present : (∃ r ∈ rules, r.rule.AllowedIn d ∧ ∃ test action cons, r.rule = .pass k test action cons) →
    ∃ t : MultipassTable, l = [wrap t] ∧ t.stage = stage ∧
      compilePass (ctx.stageClasses stage) ctx.swaps d stage (rulesOf rules d k) = .ok t.patterns

theorem stageOf {ctx : TableCtx} {rules : List Anchored} {d : Direction} {k : PassKind} {stage : Stage}
    {wrap : MultipassTable → Transform} {l : List Transform}
    (h : compileStage ctx d stage wrap (rulesOf rules d k) = .ok l) : StageOf ctx rules d k stage wrap l := by
  unfold compileStage at h
  constructor
  · intro hn
    rw [(rulesOf_nil rules d k).mpr hn] at h
    cases h
    rfl
  · rintro ⟨r, hr, ha, test, action, cons, e⟩
    have : rulesOf rules d k ≠ [] := by
      intro hn
      exact (rulesOf_nil rules d k).mp hn r hr ha test action cons e
    rw [if_neg (by simpa using this)] at h
    split at h
    · cases h
    · rename_i ps hps
      cases h
      exact ⟨⟨ps, stage⟩, rfl, rfl, hps⟩

/-- What may be in a contribution of an opcode. -/
theorem StageOf.mem {ctx rules d k stage wrap l} (h : StageOf ctx rules d k stage wrap l) : ∀ x ∈ l, ∃ t : MultipassTable,
    x = wrap t ∧ t.stage = stage ∧ compilePass (ctx.stageClasses stage) ctx.swaps d stage (rulesOf rules d k) = .ok t.patterns := by
  intro x hx
  by_cases hp : ∃ r ∈ rules, r.rule.AllowedIn d ∧ ∃ test action cons, r.rule = .pass k test action cons
  · obtain ⟨t, rfl, h1, h2⟩ := h.present hp
    rw [List.mem_singleton] at hx
    exact ⟨t, hx, h1, h2⟩
  · have := h.absent (fun r hr ha test action cons e => hp ⟨r, hr, ha, test, action, cons, e⟩)
    subst this
    cases hx

theorem SameSteps.append {a b x y : List Transform} (h : SameSteps a b) (h' : SameSteps x y) : SameSteps (a ++ x) (b ++ y) := by
  induction h with
  | nil => exact h'
  | cons h1 _ ih => exact .cons h1 ih

theorem SameSteps.split : ∀ {a x l : List Transform}, SameSteps (a ++ x) l → ∃ b y, l = b ++ y ∧ SameSteps a b ∧ SameSteps x y
  | [], x, l, h => ⟨[], l, rfl, .nil, h⟩
  | s :: a, x, l, h => by
    cases h with
    | cons h1 h2 =>
      obtain ⟨b, y, rfl, h3, h4⟩ := h2.split
      exact ⟨_ :: b, y, rfl, .cons h1 h3, h4⟩

theorem SameSteps.reverse {a b : List Transform} (h : SameSteps a b) : SameSteps a.reverse b.reverse := by
  induction h with
  | nil => exact .nil
  | cons h1 _ ih =>
    rw [List.reverse_cons, List.reverse_cons]
    exact ih.append (.cons h1 .nil)

theorem SameSteps.same {a b : List Transform} (h : SameSteps a b) (ha : ∀ x ∈ a, ∃ t, x = .pre t ∨ x = .post t) : b = a := by
  induction h with
  | nil => rfl
  | @cons x y as bs h1 h2 ih =>
    rw [ih (fun z hz => ha z (List.mem_cons_of_mem _ hz))]
    obtain ⟨t, rfl | rfl⟩ := ha _ (List.mem_cons_self ..)
    · cases h1; rfl
    · cases h1; rfl

/-- **C11** (order of the stages).  A compiled pipeline consists of the `correct` stage, the main stage and the `pass2`,
`pass3` and `pass4` stages, in this order (in the reverse order for backward translation).  The main stage is always there;
each other stage is there exactly if the table has a rule of its opcode that may be used in the direction. -/
theorem C11_stages (sys : Sys) (rules : List Anchored) (d : Direction) (steps : List Transform)
    (h : Pipeline.Compiles sys rules d steps) : ∃ correct p pass2 pass3 pass4,
      steps = inOrder d (correct ++ [.primary p] ++ pass2 ++ pass3 ++ pass4) ∧
      (∃ p₀, Primary.compile sys (TableCtx.compile sys.alpha (allowedRules rules d)) d (allowedRules rules d) = .ok p₀ ∧ p₀.Same p) ∧
      StageOf (TableCtx.compile sys.alpha rules) rules d .correct .pre .pre correct ∧
      StageOf (TableCtx.compile sys.alpha rules) rules d .pass2 .post1 .post pass2 ∧
      StageOf (TableCtx.compile sys.alpha rules) rules d .pass3 .post2 .post pass3 ∧
      StageOf (TableCtx.compile sys.alpha rules) rules d .pass4 .post3 .post pass4 := by
  obtain ⟨s₀, h, hs⟩ := h
  obtain ⟨correct, p, pass2, pass3, pass4, h1, h2, h3, h4, h5, e⟩ := compile_parts h
  have g1 : StageOf _ rules d .correct .pre .pre correct := stageOf h1
  have g3 : StageOf _ rules d .pass2 .post1 .post pass2 := stageOf h3
  have g4 : StageOf _ rules d .pass3 .post2 .post pass3 := stageOf h4
  have g5 : StageOf _ rules d .pass4 .post3 .post pass4 := stageOf h5
  -- undo the reversal
  have hs' : ∃ l, SameSteps (correct ++ ([.primary p] ++ (pass2 ++ (pass3 ++ pass4)))) l ∧ steps = inOrder d l := by
    cases d with
    | forward =>
      simp only [List.append_assoc, inOrder] at e
      exact ⟨steps, e ▸ hs, rfl⟩
    | backward =>
      simp only [List.append_assoc, inOrder] at e
      refine ⟨steps.reverse, ?_, by simp [inOrder]⟩
      have := hs.reverse
      rw [e, List.reverse_reverse] at this
      exact this
  obtain ⟨l, hl, e'⟩ := hs'
  obtain ⟨c', l, rfl, i1, hl⟩ := hl.split
  obtain ⟨m', l, rfl, i2, hl⟩ := hl.split
  obtain ⟨a', l, rfl, i3, hl⟩ := hl.split
  obtain ⟨b', d', rfl, i4, i5⟩ := hl.split
  have j1 := i1.same (fun x hx => by obtain ⟨t, ht, -⟩ := g1.mem x hx; exact ⟨t, Or.inl ht⟩)
  have j3 := i3.same (fun x hx => by obtain ⟨t, ht, -⟩ := g3.mem x hx; exact ⟨t, Or.inr ht⟩)
  have j4 := i4.same (fun x hx => by obtain ⟨t, ht, -⟩ := g4.mem x hx; exact ⟨t, Or.inr ht⟩)
  have j5 := i5.same (fun x hx => by obtain ⟨t, ht, -⟩ := g5.mem x hx; exact ⟨t, Or.inr ht⟩)
  subst j1 j3 j4 j5
  cases i2 with
  | cons k1 k2 =>
    cases k2
    cases k1 with
    | @primary _ p' k1 =>
      refine ⟨c', p', a', b', d', ?_, ⟨p, h2, k1⟩, g1, g3, g4, g5⟩
      rw [e']
      cases d <;> simp [inOrder]

/-! ## Translation is composition -/

/-- **C11.** Translating with some steps and then with others is translating with all of them. -/
theorem C11_composition (cs : Case) (spans : List Span) : ∀ (a b : List Transform) (input output : Text),
    Pipeline.Translates cs spans input (a ++ b) output ↔
      ∃ mid, Pipeline.Translates cs spans input a mid ∧ Pipeline.Translates cs spans mid b output
  | [], b, input, output => by
    constructor
    · intro h; exact ⟨input, rfl, h⟩
    · rintro ⟨mid, rfl, h⟩; exact h
  | s :: a, b, input, output => by
    constructor
    · rintro ⟨mid, h1, h2⟩
      obtain ⟨mid', h3, h4⟩ := (C11_composition cs spans a b mid output).mp h2
      exact ⟨mid', ⟨mid, h1, h3⟩, h4⟩
    · rintro ⟨mid', ⟨mid, h1, h3⟩, h4⟩
      exact ⟨mid, h1, (C11_composition cs spans a b mid output).mpr ⟨mid', h3, h4⟩⟩

/-- **C11.** The translation is what the last stage of the trace wrote, and the stages of the trace are those of the pipeline. -/
theorem C11_trace_is_translation (cs : Case) (spans : List Span) : ∀ (steps : List Transform) (input output : Text),
    Pipeline.Translates cs spans input steps output ↔
      ∃ tss, Pipeline.Traces cs spans input steps tss ∧ tss.length = steps.length ∧ output = lastOutput input tss
  | [], input, output => by
    constructor
    · rintro rfl; exact ⟨[], rfl, rfl, rfl⟩
    · rintro ⟨tss, rfl, -, rfl⟩; rfl
  | s :: steps, input, output => by
    constructor
    · rintro ⟨mid, ⟨ts, h1, rfl⟩, h2⟩
      obtain ⟨tss, h3, h4, rfl⟩ := (C11_trace_is_translation cs spans steps _ output).mp h2
      refine ⟨ts :: tss, ⟨ts, tss, rfl, h1, h3⟩, by simp [h4], ?_⟩
      cases tss with
      | nil => rfl
      | cons x xs => simp only [lastOutput, List.getLast?_cons, Option.getD_some, Option.map_some]
    · rintro ⟨tss, ⟨ts, rest, rfl, h1, h2⟩, h3, rfl⟩
      refine ⟨outputOf ts, ⟨ts, h1, rfl⟩, ?_⟩
      rw [C11_trace_is_translation cs spans steps]
      refine ⟨rest, h2, by simpa using h3, ?_⟩
      cases rest with
      | nil => rfl
      | cons x xs => simp only [lastOutput, List.getLast?_cons, Option.getD_some, Option.map_some]

end Louis
