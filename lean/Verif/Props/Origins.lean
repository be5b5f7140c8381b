import Verif.Props.PipelineTotal
import Verif.Props.RulesTrace

/-!
# C12: only the rules of the direction take part
-/

namespace Louis

open Regexp (findAnchored)

/-! ## Multipass stages -/

theorem unresolved_origin {ctx swaps stage prec origin test action p}
    (h : compilePattern ctx swaps stage prec origin test action = .ok p) :
    ∃ u : Unresolved, u.origin = some origin ∧ ∃ r, p = Regexp.compile r (.unresolved u) := by
  unfold compilePattern at h
  split at h
  · cases h
  · split at h
    · cases h
    · injection h with h
      exact ⟨_, rfl, _, h.symm⟩

/-- The translation was made by one of the rules. -/
def MadeBy (rules : List PassRule) (tr : Resolved) : Prop := ∃ r ∈ rules, tr.origin = some r.origin

section
variable {ctx : CharClasses} {swaps : SwapClasses} {direction : Direction} {rules : List PassRule} {t : MultipassTable}
  {lower : Char → List Char} {input : Text}

theorem found_madeBy (hc : compilePass ctx swaps direction t.stage rules = .ok t.patterns) {rest : Text} {env : Env} {b : Bool}
    {found : List Resolved} (hf : patternsFind t.patterns lower rest env b = .ok found) : ∀ tr ∈ found, MadeBy rules tr := by
  intro tr htr
  obtain ⟨p, hp, f, hf, rfl⟩ := patternsFind_mem hf tr htr
  obtain ⟨r, hrm, hcp, -⟩ := compilePass_mem hc p hp
  obtain ⟨u, hu, re, rfl⟩ := unresolved_origin hcp
  obtain ⟨res, e, -, h3⟩ := Regexp.findAnchored_spec re (Translation.unresolved u) lower rest env b
  rw [hf] at e
  injection e with e
  subst e
  obtain ⟨_, _, _, _, _, h⟩ := h3 f rfl
  refine ⟨r, hrm, ?_⟩
  have : f.payload = .unresolved u := by grind
  rw [this, ← hu]
  rfl

theorem mp_delayed (hc : compilePass ctx swaps direction t.stage rules = .ok t.patterns) {s : MpState}
    (hr : MpReach t lower input s) : (∀ tr ∈ s.delayed, MadeBy rules tr) ∧ ∀ tr ∈ s.out, tr.origin = none ∨ MadeBy rules tr := by
  induction hr with
  | init => exact ⟨by simp [MpState.init], by simp [MpState.init]⟩
  | @step s s' hr e ih =>
    obtain ⟨ih1, ih2⟩ := ih
    unfold mpStep at e
    simp only at e
    split at e
    · cases e
    · next found hf =>
      have hfound := found_madeBy hc hf
      have hdel : ∀ tr ∈ s.delayed ++ found.filter (·.offset != 0), MadeBy rules tr := by
        intro tr h
        rcases List.mem_append.mp h with h | h
        · exact ih1 tr h
        · exact hfound tr (List.mem_filter.mp h).1
      split at e
      · next c hcand =>
        split at e
        · cases e
        · injection e with e
          injection e with e
          subst e
          have hcm := (List.mem_filter.mp (heaviest_mem hcand)).1
          have hc' : MadeBy rules c := by
            rcases List.mem_append.mp hcm with h | h
            · exact hfound c (List.mem_filter.mp h).1
            · exact hdel c (List.mem_filter.mp h).1
          refine ⟨?_, ?_⟩
          · intro tr h
            obtain ⟨tr', h1, h2⟩ := mem_updateOffsets h
            obtain ⟨r, g1, g2⟩ := hdel tr' (List.mem_filter.mp h1).1
            exact ⟨r, g1, h2 ▸ g2⟩
          · intro tr h
            rcases List.mem_append.mp h with h | h
            · exact ih2 tr h
            · rw [List.mem_singleton.mp h]
              exact Or.inr hc'
      · split at e
        · cases e
        · injection e with e
          injection e with e
          subst e
          refine ⟨?_, ?_⟩
          · intro tr h
            obtain ⟨tr', h1, h2⟩ := mem_updateOffsets h
            obtain ⟨r, g1, g2⟩ := hdel tr' (List.mem_filter.mp h1).1
            exact ⟨r, g1, h2 ▸ g2⟩
          · intro tr h
            rcases List.mem_append.mp h with h | h
            · exact ih2 tr h
            · rw [List.mem_singleton.mp h]
              exact Or.inl rfl

theorem mp_origin (hc : compilePass ctx swaps direction t.stage rules = .ok t.patterns) {ts : List Resolved}
    (h : t.Traces lower input ts) : ∀ tr ∈ ts, tr.origin = none ∨ MadeBy rules tr := by
  obtain ⟨k, h⟩ := h
  obtain ⟨s, hs, rfl⟩ := mpLoop_reach (fun s => MpReach t lower input s) (fun s hr _ => hr) .init h
  exact (mp_delayed hc hs).2

end

/-! ## The main stage -/

theorem insertion_origin (r : Anchored) (chars dots : Text) (b a ws) : (r.insertion chars dots b a ws).origin? = some r.origin := rfl

theorem ops_origin {ctx : TableCtx} {d : Direction} {L : List Char} {D : List Text} {r : Anchored} {ops : List PrimOp}
    (h : r.ops ctx d L D = .ok ops) : ∀ op ∈ ops, ∀ o, op.origin? = some o → o = r.origin := by
  intro op hop o ho
  unfold Anchored.ops at h
  simp only at h
  have dig : ∀ c dots, ∀ op ∈ r.digitOps d D c dots, op.origin? = some r.origin := by
    intro c dots op h
    unfold Anchored.digitOps at h
    split at h
    · split at h
      · rw [List.mem_singleton.mp h]; rfl
      · cases h
    · cases h
  have sig : ∀ dots, ∀ op ∈ r.signOps d D dots, op.origin? = some r.origin := by
    intro dots op h
    unfold Anchored.signOps at h
    repeat' split at h
    all_goals first
      | cases h; done
      | (rw [List.mem_singleton.mp h]; rfl)
      | grind
  split at h <;> (try split at h) <;> (try (injection h with h; subst h)) <;>
    (try simp only [List.mem_cons, List.mem_append, List.mem_map, List.not_mem_nil, or_false, false_or] at hop) <;>
    first
      | contradiction
      | (rw [sig _ op hop] at ho; injection ho with ho; exact ho.symm)
      | (rw [dig _ _ op hop] at ho; injection ho with ho; exact ho.symm)
      | (rcases hop with hop | hop
         · first | (split at hop
                    · cases hop
                    · rw [List.mem_singleton.mp hop] at ho; injection ho with ho; exact ho.symm)
                 | (rw [hop] at ho; injection ho with ho; exact ho.symm)
         · rw [dig _ _ op hop] at ho; injection ho with ho; exact ho.symm)
      | (obtain ⟨e, -, rfl⟩ := hop; injection ho with ho; exact ho.symm)
      | (rw [hop] at ho; injection ho with ho; exact ho.symm)
      | (split at hop
         · rw [List.mem_singleton.mp hop] at ho; injection ho with ho; exact ho.symm
         · cases hop)
      | (rw [hop] at ho; cases ho)

theorem tableOps_origin {ctx : TableCtx} {d : Direction} {rules : List Anchored} : ∀ op ∈ tableOps ctx d rules, ∀ o,
    op.origin? = some o → ∃ r ∈ rules, o = r.origin := by
  intro op hop o ho
  rcases List.mem_append.mp hop with h | h
  · obtain ⟨r, hr, h⟩ := List.mem_flatMap.mp h
    refine ⟨r, hr, ?_⟩
    unfold Anchored.firstOps at h
    split at h
    · rw [List.mem_singleton.mp h] at ho; injection ho with ho; exact ho.symm
    · rw [List.mem_singleton.mp h] at ho; injection ho with ho; exact ho.symm
    · cases h
  · obtain ⟨r, hr, h⟩ := List.mem_flatMap.mp h
    refine ⟨r, hr, ?_⟩
    unfold Anchored.opsD at h
    cases e : r.ops ctx d (litdigitChars d rules) (letterDotsOf d rules) with
    | error _ => rw [e] at h; cases h
    | ok ops => rw [e] at h; exact ops_origin e op h o ho

theorem Emitted.op_origin {ctx d ops} {t : PrimaryTable} (hb : PrimOk ctx d ops t) {cs : Case} {cons : Constraints}
    {s : PState} {tr : Resolved} (h : Emitted ctx d ops t cs cons s tr) {o : Origin} (ho : tr.origin = some o) :
    ∃ op ∈ ops, op.origin? = some o := by
  cases h with
  | nocross r h1 _ h3 => exact ⟨_, h1, by rw [← ho, h3]; rfl⟩
  | comp6 r _ h1 _ h3 => exact ⟨_, h1, by rw [← ho, h3]; rfl⟩
  | rule _ h1 => obtain ⟨op, g1, -, -, g2⟩ := h1.op; exact ⟨op, g1, g2.trans ho⟩
  | digit c ch o' _ _ _ _ h1 h2 => exact ⟨_, h1, by rw [← ho, h2]; rfl⟩
  | plain c _ h1 => obtain ⟨dots, prec, g⟩ := plain_origin hb h1 ho; exact ⟨_, g, rfl⟩

theorem MainStage.origin {sys : Sys} {ctx : TableCtx} {d : Direction} {rules : List Anchored} {p : Primary}
    (h : MainStage sys ctx d rules p) {cs : Case} {input : Text} {spans : List Span} {ts : List Resolved}
    (ht : p.Traces cs input spans ts) : ∀ tr ∈ ts, ∀ o, tr.origin = some o → ∃ r ∈ rules, o = r.origin := by
  intro tr htr o ho
  obtain ⟨e, cons, ind, -, -, h3, h4⟩ := ht
  obtain ⟨a, b, rfl⟩ := List.append_of_mem htr
  rcases trace_item h.built (h.ind_empty h3) h4 rfl with ⟨pos, hp⟩ | ⟨s, -, hs, -⟩
  · obtain ⟨r, hr, dots, -, rfl⟩ := h.signs tr (precompute_signs _ _ _ _ _ h3 pos tr hp)
    injection ho with ho
    exact ⟨r, hr, ho.symm⟩
  · obtain ⟨op, hop, g⟩ := hs.op_origin h.built.ok ho
    exact tableOps_origin op hop o g

/-! ## The property -/

/-- **C12** (who takes part).  Whatever any stage of a translation writes on behalf of a rule, the rule is one of the table
that may be used in the direction: no `noback` rule writes anything in backward translation, no `nofor` rule in forward. -/
theorem C12_only_rules_of_direction (sys : Sys) (rules : List Anchored) (d : Direction) (steps : List Transform)
    (h : Pipeline.Compiles sys rules d steps) (cs : Case) (spans : List Span) (input : Text) (tss : List (List Resolved))
    (ht : Pipeline.Traces cs spans input steps tss) :
    ∀ ts ∈ tss, ∀ tr ∈ ts, ∀ o, tr.origin = some o → ∃ r ∈ rules, r.rule.AllowedIn d ∧ o = r.origin := by
  have hsteps := compiles_steps h
  clear h
  induction steps generalizing input tss with
  | nil => rw [show tss = [] from ht]; intro ts hts; cases hts
  | cons s steps ih =>
    obtain ⟨ts₀, rest, rfl, h1, h2⟩ := ht
    intro ts hts tr htr o ho
    rcases List.mem_cons.mp hts with rfl | hts
    · have mp : ∀ (t : MultipassTable) (k : PassKind), compilePass ((TableCtx.compile sys.alpha rules).stageClasses t.stage)
          (TableCtx.compile sys.alpha rules).swaps d t.stage (rulesOf rules d k) = .ok t.patterns →
          t.Traces cs.lower input ts → ∃ r ∈ rules, r.rule.AllowedIn d ∧ o = r.origin := by
        intro t k hc ht
        rcases mp_origin hc ht tr htr with hn | ⟨pr, hpr, hn⟩
        · rw [ho] at hn; cases hn
        · rw [ho] at hn
          injection hn with hn
          obtain ⟨r, hr, e⟩ := List.mem_filterMap.mp hpr
          obtain ⟨hr, ha⟩ := mem_allowed.mp hr
          refine ⟨r, hr, ha, ?_⟩
          rw [hn]
          split at e
          · split at e
            · injection e with e; subst e; rfl
            · cases e
          · cases e
      rcases hsteps s (List.mem_cons_self ..) with ⟨t, k, hs | hs, hc⟩ | ⟨p, rfl, hp⟩
      · subst hs; exact mp t k hc h1
      · subst hs; exact mp t k hc h1
      · obtain ⟨r, hr, e⟩ := hp.origin h1 tr htr o ho
        obtain ⟨hr, ha⟩ := mem_allowed.mp hr
        exact ⟨r, hr, ha, e⟩
    · exact ih (outputOf ts₀) rest h2 (fun x hx => hsteps x (List.mem_cons_of_mem _ hx)) ts hts tr htr o ho

/-! ## Compiling only the allowed rules -/

theorem allowed_derive (alpha : Char → Bool) (d : Direction) : ∀ (rules : List Anchored) (ctx : TableCtx),
    (allowedRules rules d).foldl (fun ctx r => ctx.derive r.rule) ctx = rules.foldl (fun ctx r => ctx.derive r.rule) ctx
  | [], _ => rfl
  | r :: rs, ctx => by
    unfold allowedRules
    rw [List.filter_cons]
    split
    · exact allowed_derive alpha d rs _
    · next h =>
      rw [List.foldl_cons]
      have : ctx.derive r.rule = ctx := by
        cases e : r.rule <;> first
          | rfl
          | (rw [e] at h; exact absurd rfl h)
      rw [this]
      exact allowed_derive alpha d rs _

/-- The rule puts nothing into the context of the table (definitions, classes of characters and of cells). -/
def Rule.Inert (alpha : Char → Bool) (r : Rule) : Prop :=
  (∀ k c dots cons, r ≠ .charDef k c dots cons) ∧ ∀ chars dots cons withs, r = .text .always chars dots cons withs → chars.all alpha = false

theorem allowed_define (alpha : Char → Bool) (d : Direction) : ∀ (rules : List Anchored),
    (∀ r ∈ rules, ¬ r.rule.AllowedIn d → r.rule.Inert alpha) → ∀ (ctx : TableCtx),
    (allowedRules rules d).foldl (fun ctx r => ctx.define alpha r.rule) ctx = rules.foldl (fun ctx r => ctx.define alpha r.rule) ctx
  | [], _, _ => rfl
  | r :: rs, hi, ctx => by
    have ih := allowed_define alpha d rs (fun x hx => hi x (List.mem_cons_of_mem _ hx))
    unfold allowedRules at ih ⊢
    rw [List.filter_cons]
    split
    · exact ih _
    · next h =>
      rw [List.foldl_cons]
      have : ctx.define alpha r.rule = ctx := by
        have := hi r (List.mem_cons_self ..) (by rw [← isDirection_iff]; exact h)
        unfold TableCtx.define
        split
        · next e => exact absurd e (this.1 _ _ _ _)
        · next e => rw [e] at h; exact absurd rfl h
        · next e => rw [this.2 _ _ _ _ e]; rfl
        · rfl
      rw [this]
      exact ih _

theorem allowed_idem (rules : List Anchored) (d : Direction) : allowedRules (allowedRules rules d) d = allowedRules rules d := by
  unfold allowedRules
  rw [List.filter_filter]
  simp

/-- **C12** (same stages).  Compiling all rules for a direction is compiling only the rules allowed in it — provided no rule
of the other direction defines a character or is an alphabetic `always` rule.  (Missing: tables with such rules, for which
it is false, see `C12_other_direction_defines_wrong`.) -/
theorem C12_same_stages_partial (sys : Sys) (rules : List Anchored) (d : Direction)
    (hi : ∀ r ∈ rules, ¬ r.rule.AllowedIn d → r.rule.Inert sys.alpha) :
    Pipeline.compile sys rules d = Pipeline.compile sys (allowedRules rules d) d := by
  have : TableCtx.compile sys.alpha (allowedRules rules d) = TableCtx.compile sys.alpha rules := by
    unfold TableCtx.compile
    simp only
    rw [allowed_define sys.alpha d rules hi, allowed_derive sys.alpha d]
  have e : rules.filter (·.rule.isDirection d) = allowedRules rules d := rfl
  have e' : (allowedRules rules d).filter (·.rule.isDirection d) = allowedRules rules d := allowed_idem rules d
  unfold Pipeline.compile
  simp only [e, e']
  rw [this]

/-! ## Examples -/

/-- The translation computed with a bound on the number of rounds. -/
def runText (sys : Sys) (cs : Case) (fuel : Nat) (rules : List Anchored) (d : Direction) (spans : List Span) (input : Text) :
    Option Text := (Pipeline.run sys cs fuel rules d spans input).map (lastOutput input)

theorem runText_sound {sys : Sys} {cs : Case} {fuel : Nat} {rules : List Anchored} {d : Direction} {spans : List Span}
    {input output : Text} (h : runText sys cs fuel rules d spans input = some output) :
    ∃ steps tss, Pipeline.compile sys rules d = .ok steps ∧ Pipeline.Traces cs spans input steps tss ∧
      output = lastOutput input tss ∧ Pipeline.Translates cs spans input steps output := by
  unfold runText at h
  cases e : Pipeline.run sys cs fuel rules d spans input with
  | none => rw [e] at h; cases h
  | some tss =>
    rw [e] at h
    injection h with h
    obtain ⟨steps, h1, h2⟩ := Pipeline.run_sound e
    refine ⟨steps, tss, h1, h2, h.symm, ?_⟩
    rw [C11_trace_is_translation]
    exact ⟨tss, h2, Pipeline.Traces.length h2, h.symm⟩

/-- `nofor letter a 1`, `letter b 12`, `correct $l "b"`. -/
def noforRules : List Anchored :=
  [⟨.charDef .letter 'a' [[.d1]] ⟨true, false, false⟩, 0⟩, ⟨.charDef .letter 'b' [[.d1, .d2]] RuleCons.none, 1⟩,
    ⟨.pass .correct [.attributes [.cls .letter] none] [.string "b".toList] RuleCons.none, 2⟩]

/-- **C12 is false of the code**: a rule marked `nofor` takes part in forward translation, as its character is a letter for
the `correct` rules; with only the rules allowed in forward translation the translation is another one. -/
theorem C12_other_direction_defines_wrong :
    runText demoSys ascii 10 noforRules .forward [] "a".toList = some "⠃".toList ∧
    runText demoSys ascii 10 (allowedRules noforRules .forward) .forward [] "a".toList = some "⠳⠭⠖⠂".toList := by
  constructor <;> decide +kernel

/-- A table with a rule of each stage. -/
def stagesRules : List Anchored :=
  [⟨.charDef .letter 'a' [[.d1]] RuleCons.none, 0⟩, ⟨.charDef .letter 'b' [[.d1, .d2]] RuleCons.none, 1⟩,
    ⟨.charDef .letter 'c' [[.d1, .d4]] RuleCons.none, 2⟩,
    ⟨.pass .correct [.string "aa".toList] [.string "b".toList] ⟨false, true, false⟩, 3⟩,
    ⟨.text .always "bc".toList (.explicit [[.d3]]) ⟨false, true, false⟩ [], 4⟩,
    ⟨.pass .pass2 [.dots "⠄".toList] [.dots "⠂".toList] RuleCons.none, 5⟩,
    ⟨.pass .pass4 [.dots "⠂".toList] [.dots "⠆⠆".toList] RuleCons.none, 6⟩]

/-- Non-vacuity of `C09_translation_total_partial`, `C11_stages`, `C12_only_rules_of_direction`, `C12_same_stages_partial`:
stages following each other, forward and backward. -/
example : runText demoSys ascii 20 stagesRules .forward [] "aac".toList = some "⠆⠆".toList ∧
    runText demoSys ascii 20 stagesRules .backward [] "⠁⠃".toList = some "ab".toList ∧
    ((Pipeline.run demoSys ascii 20 stagesRules .forward [] "aac".toList).map fun tss =>
      tss.map fun ts => ts.map fun t => (String.ofList t.output, t.origin.map (·.id))) =
      some [[("b", some 3), ("c", none)], [("⠄", some 4)], [("⠂", some 5)], [("⠆⠆", some 6)]] := by
  refine ⟨?_, ?_, ?_⟩ <;> decide +kernel

end Louis
