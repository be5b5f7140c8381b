import Verif.Props.Rules

/-!
# C52 over whole traces: every replacement in a multipass stage is justified by a rule
-/

namespace Louis

open Regexp (Regexp findAnchored utf8Len utf8Len_append utf8Len_eq_zero)

/-- The rule uses only instructions covered by `C52_rule_semantics_partial`. -/
structure RuleSupported (r : PassRule) : Prop where
  parts : ∃ before inside after, Parts r.test before inside after ∧
    ∀ env, ∀ t ∈ before ++ inside ++ after, Supported env t
  act : NoStep r.action

/-- Rule `r` accounts for the replacement `tr` at position `q` of `input`: its test, read from some position `u.length ≤ q`
with the variables as they were when the stage got there, reads `x` before the brackets (ending at `q`) and `y` inside; and
`tr` replaces `y` by what the actions of `r` write. -/
structure Accounts (ctx : CharClasses) (swaps : SwapClasses) (t : MultipassTable) (lower : Char → List Char) (input : Text)
    (r : PassRule) (q : Nat) (tr : Resolved) : Prop where
  ex : ∃ before inside after, Parts r.test before inside after ∧
    ∃ (s : MpState) (u x y z : Text), MpReach t lower input s ∧ input = u ++ s.rest ∧ q = (u ++ x).length ∧
      TestReads ctx s.env (decide (u = [])) before inside after s.rest x y z ∧
      tr.input = y ∧ tr.length = y.length ∧ Writes swaps y r.action tr.output ∧ Asks r.action tr.effects ∧
      tr.origin = some r.origin

theorem Accounts.offset {ctx swaps t lower input r q} {tr : Resolved} {n : Nat} (h : Accounts ctx swaps t lower input r q tr) :
    Accounts ctx swaps t lower input r q { tr with offset := n } := ⟨h.ex⟩

theorem patternsFind_mem {lower : Char → List Char} {input : Text} {env : Env} {atStart : Bool} :
    ∀ {ps : List (Regexp.Compiled Translation)} {l}, patternsFind ps lower input env atStart = .ok l → ∀ tr ∈ l,
      ∃ p ∈ ps, ∃ f, findAnchored p lower input env atStart = .ok (some f) ∧ tr = f.payload.resolve f.capture f.length f.offset := by
  intro ps
  induction ps with
  | nil => intro l h tr htr; simp only [patternsFind, Except.ok.injEq] at h; subst h; cases htr
  | cons p ps ih =>
    intro l h tr htr
    simp only [patternsFind] at h
    split at h
    · cases h
    · next r hr =>
      split at h
      · cases h
      · next rs hrs =>
        split at h
        · cases h
          obtain ⟨p', hp', f, hf, e⟩ := ih hrs tr htr
          exact ⟨p', List.mem_cons_of_mem _ hp', f, hf, e⟩
        · next f =>
          cases h
          rcases List.mem_cons.1 htr with rfl | htr
          · exact ⟨p, List.mem_cons_self .., f, hr, rfl⟩
          · obtain ⟨p', hp', f', hf, e⟩ := ih hrs tr htr
            exact ⟨p', List.mem_cons_of_mem _ hp', f', hf, e⟩

theorem compilePass_mem {ctx swaps direction stage} : ∀ {rules ps}, compilePass ctx swaps direction stage rules = .ok ps →
    ∀ p ∈ ps, ∃ r ∈ rules, compilePattern ctx swaps stage .default r.origin r.test r.action = .ok p ∧
      (direction = .backward → r.action.any (·.consumesInput) = true) := by
  intro rules
  induction rules with
  | nil => intro ps h p hp; simp only [compilePass, Except.ok.injEq] at h; subst h; cases hp
  | cons r rs ih =>
    intro ps h p hp
    simp only [compilePass] at h
    split at h
    · obtain ⟨r', hr', e⟩ := ih h p hp
      exact ⟨r', List.mem_cons_of_mem _ hr', e⟩
    · next hd =>
      split at h
      · cases h
      · next q hq =>
        split at h
        · cases h
        · next qs hqs =>
          cases h
          rcases List.mem_cons.1 hp with rfl | hp
          · refine ⟨r, List.mem_cons_self .., hq, fun hb => ?_⟩
            cases hc : r.action.any (·.consumesInput) with
            | true => rfl
            | false => exact absurd ⟨hb, by simp [hc]⟩ hd
          · obtain ⟨r', hr', e⟩ := ih hqs p hp
            exact ⟨r', List.mem_cons_of_mem _ hr', e⟩

variable {ctx : CharClasses} {swaps : SwapClasses} {direction : Direction} {rules : List PassRule} {t : MultipassTable}
  {lower : Char → List Char} {input : Text}

/-- What is found at a reachable state is accounted for. -/
theorem found_accounts (hc : compilePass ctx swaps direction t.stage rules = .ok t.patterns)
    (hs : ∀ r ∈ rules, RuleSupported r) {s : MpState} (hr : MpReach t lower input s) {u : Text} (hu : input = u ++ s.rest)
    {found : List Resolved}
    (hf : patternsFind t.patterns lower s.rest s.env (utf8Len s.rest == utf8Len input) = .ok found) :
    ∀ tr ∈ found, ∃ r ∈ rules, Accounts ctx swaps t lower input r (u.length + tr.offset) tr := by
  intro tr htr
  obtain ⟨p, hp, f, hf, rfl⟩ := patternsFind_mem hf tr htr
  obtain ⟨r, hrm, hcp, -⟩ := compilePass_mem hc p hp
  obtain ⟨before, inside, after, hparts, hsup⟩ := (hs r hrm).parts
  have hat : (utf8Len s.rest == utf8Len input) = decide (u = []) := by
    rw [hu, utf8Len_append]
    cases u with
    | nil => simp [Regexp.utf8Len]
    | cons a u =>
      have := Char.utf8Size_pos a
      simp only [Regexp.utf8Len, reduceCtorEq, decide_false, beq_eq_false_iff_ne]
      omega
  rw [hat] at hf
  obtain ⟨-, h⟩ := C52_rule_semantics_partial ctx swaps t.stage .default r.origin r.test r.action p hcp before inside after
    hparts lower s.rest s.env (decide (u = [])) (hsup s.env) (hs r hrm).act
  obtain ⟨x, y, z, out, es, h1, h2, h3, h4, h5⟩ := h f hf
  refine ⟨r, hrm, ⟨before, inside, after, hparts, s, u, x, y, z, hr, hu, ?_, h1, ?_⟩⟩
  · rw [h5]; simp
  · rw [h5]; exact ⟨rfl, rfl, h3, h4, rfl⟩

theorem delayed_accounts (hp : CompiledPass t) (hc : compilePass ctx swaps direction t.stage rules = .ok t.patterns)
    (hs : ∀ r ∈ rules, RuleSupported r) {s : MpState} (hr : MpReach t lower input s) :
    ∀ tr ∈ s.delayed, ∃ r ∈ rules,
      Accounts ctx swaps t lower input r ((s.out.flatMap (·.input)).length + tr.offset) tr := by
  induction hr with
  | init => intro tr htr; simp [MpState.init] at htr
  | @step s s' hr e ih =>
    have inv := hr.inv hp
    have inv' := (MpReach.step hr e).inv hp
    have hu : input = s.out.flatMap (·.input) ++ s.rest := inv.split.symm
    -- the positions before and after
    have key : ∀ (found : List Resolved) (n : Nat),
        patternsFind t.patterns lower s.rest s.env (utf8Len s.rest == utf8Len input) = .ok found →
        s'.delayed = updateOffsets ((s.delayed ++ found.filter (·.offset != 0)).filter (·.offset != 0)) n →
        (s'.out.flatMap (·.input)).length = (s.out.flatMap (·.input)).length + n →
        ∀ tr ∈ s'.delayed, ∃ r ∈ rules, Accounts ctx swaps t lower input r ((s'.out.flatMap (·.input)).length + tr.offset) tr := by
      intro found n hf hd hlen tr htr
      rw [hd] at htr
      simp only [updateOffsets, List.mem_map, List.mem_filter, decide_eq_true_eq] at htr
      obtain ⟨d, ⟨⟨hd1, -⟩, hn⟩, rfl⟩ := htr
      have hpos : ∀ o, o ≥ n → (s.out.flatMap (·.input)).length + o = (s'.out.flatMap (·.input)).length + (o - n) := by
        intro o ho; omega
      rcases List.mem_append.1 hd1 with hd1 | hd1
      · obtain ⟨r, hrm, ha⟩ := ih d hd1
        rw [hpos d.offset hn] at ha
        exact ⟨r, hrm, ha.offset⟩
      · obtain ⟨r, hrm, ha⟩ := found_accounts hc hs hr hu hf d (List.mem_filter.1 hd1).1
        rw [hpos d.offset hn] at ha
        exact ⟨r, hrm, ha.offset⟩
    have hlens : ∀ n, s'.rest = s.rest.drop n → n ≤ s.rest.length →
        (s'.out.flatMap (·.input)).length = (s.out.flatMap (·.input)).length + n := by
      intro n h hn
      have h1 := congrArg List.length inv.split
      have h2 := congrArg List.length inv'.split
      rw [List.length_append] at h1 h2
      rw [h, List.length_drop] at h2
      omega
    have e0 := e
    unfold mpStep at e
    simp only at e
    split at e
    · cases e
    · next found hf =>
      split at e
      · next c hcand =>
        split at e
        · cases e
        · next env he =>
          cases e
          refine key found c.length hf rfl (hlens c.length ?_ ?_)
          · simp only; split
            · next h => simp [h]
            · rfl
          · obtain ⟨found', e', hcands⟩ := patternsFind_cand hp.ok lower s.rest s.env (utf8Len s.rest == utf8Len input)
              input.length (by rw [← inv.split]; simp)
            rw [hf] at e'; cases e'
            have hm := heaviest_mem hcand
            simp only [List.mem_filter, List.mem_append, beq_iff_eq] at hm
            rcases hm with ⟨(⟨h1, h0⟩ | ⟨h1 | ⟨h1, -⟩, h0⟩), -⟩
            · exact ((hcands c h1).fits.now h0).2
            · exact ((inv.cand c h1).fits.now h0).2
            · exact ((hcands c h1).fits.now h0).2
      · split at e
        · cases e
        · next x rest hx =>
          cases e
          refine key found 1 hf rfl (hlens 1 (by rw [hx]; rfl) (by rw [hx]; simp))

/-- **C52 (traces).** Whatever a multipass stage appends to its output is either one character of the text, unchanged, or a
replacement accounted for by one of the rules of the stage at exactly this position.  (Partial: as
`C52_rule_semantics_partial`.) -/
theorem C52_trace_justified_partial (t : MultipassTable) (ctx : CharClasses) (swaps : SwapClasses) (direction : Direction)
    (rules : List PassRule) (hc : compilePass ctx swaps direction t.stage rules = .ok t.patterns)
    (hs : ∀ r ∈ rules, RuleSupported r) (lower : Char → List Char) (input : Text) (s s' : MpState)
    (hr : MpReach t lower input s) (e : mpStep t lower input s = .ok (some s')) :
    ∃ c, s'.out = s.out ++ [c] ∧
      ((∃ x, input = s.out.flatMap (·.input) ++ x :: s'.rest ∧ c = Resolved.new [x] [x] 1 t.stage none) ∨
       ∃ r ∈ rules, Accounts ctx swaps t lower input r (s.out.flatMap (·.input)).length c) := by
  have hp : CompiledPass t := ⟨_, _, _, _, hc⟩
  have inv := hr.inv hp
  rcases mpStep_out e with ⟨c, found, hf, hh, ho, -⟩ | ⟨x, found, hf, hh, hx, ho, -⟩
  · refine ⟨c, ho, .inr ?_⟩
    have hm := heaviest_mem hh
    simp only [List.mem_filter, List.mem_append, beq_iff_eq] at hm
    rcases hm with ⟨(⟨h1, h0⟩ | ⟨h1 | ⟨h1, -⟩, h0⟩), -⟩
    · obtain ⟨r, hrm, ha⟩ := found_accounts hc hs hr inv.split.symm hf c h1
      rw [h0] at ha; exact ⟨r, hrm, ha⟩
    · obtain ⟨r, hrm, ha⟩ := delayed_accounts hp hc hs hr c h1
      rw [h0] at ha; exact ⟨r, hrm, ha⟩
    · obtain ⟨r, hrm, ha⟩ := found_accounts hc hs hr inv.split.symm hf c h1
      rw [h0] at ha; exact ⟨r, hrm, ha⟩
  · exact ⟨_, ho, .inl ⟨x, by rw [← inv.split, hx], rfl⟩⟩

/-- A rule that meets the hypotheses: `correct "a"["b"] "c"` changes "abb" to "acb". -/
def correctRule : PassRule := ⟨[.string ['a'], .replace [.string ['b']]], [.string ['c']], ⟨.other, 0⟩⟩

example : RuleSupported correctRule :=
  ⟨⟨[.string ['a']], [.string ['b']], [], Parts.bracket [.string ['a']] [.string ['b']] [], by
      intro env t ht; simp at ht; rcases ht with rfl | rfl <;> trivial⟩,
    by intro a ha v; simp [correctRule] at ha; subst ha; simp⟩

example : ∃ ps ts, compilePass [] [] .forward .pre [correctRule] = .ok ps ∧
    MultipassTable.Traces ⟨ps, .pre⟩ (fun c => [c]) ['a', 'b', 'b'] ts ∧ outputOf ts = ['a', 'c', 'b'] :=
  ⟨_, _, rfl, ⟨10, rfl⟩, rfl⟩

end Louis
