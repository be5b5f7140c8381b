import Verif.Props.Pipeline

/-!
# C09, C12, C41: translators terminate, are deterministic, and use only the rules of their direction
-/

namespace Louis

open Regexp (Fault)

/-! ## The triggers of a table -/

/-- The computer-braille triggers of a list of rules. -/
def triggersOf (rules : List Anchored) : List Text :=
  rules.filterMap fun r => match r.rule with
    | .compbrl chars _ => some chars
    | _ => none

theorem step_triggers (classes : CharClasses) (d : Direction) (D : List Text) (s : Signs) (r : Anchored) :
    (s.step classes d D r).triggers = s.triggers ++ triggersOf [r] := by
  obtain ⟨rule, id⟩ := r
  cases rule <;> simp [Signs.step, triggersOf, Signs.midnum, Signs.emphasis]

theorem signsLoop_triggers {sys : Sys} {classes : CharClasses} {d : Direction} {D : List Text} : ∀ {rules : List Anchored} {s s' : Signs},
    signsLoop sys classes d D rules s = .ok s' → s'.triggers = s.triggers ++ triggersOf rules
  | [], s, s', h => by cases h; simp [triggersOf]
  | r :: rs, s, s', h => by
    unfold signsLoop at h
    split at h
    · cases h
    · rename_i s₁ h₁
      rw [signsLoop_triggers h]
      have : s₁.triggers = (s.step classes d D r).triggers := by rw [(hyphenate_ok h₁).1]
      rw [this, step_triggers, List.append_assoc]
      congr 1
      unfold triggersOf
      rw [← List.filterMap_append]
      rfl

theorem first_triggers : ∀ (rules : List Anchored) (s : Signs), (rules.foldl Signs.first s).triggers = s.triggers
  | [], _ => rfl
  | r :: rs, s => by
    rw [List.foldl_cons, first_triggers rs]
    unfold Signs.first
    split <;> rfl

theorem MainParts.triggers {sys : Sys} {ctx : TableCtx} {d : Direction} {rules : List Anchored} {p : Primary}
    (h : MainParts sys ctx d rules p) : p.triggers = triggersOf rules := by
  obtain ⟨s, h1, -, -, h4⟩ := h.signs
  rw [h4, signsLoop_triggers h1, first_triggers]
  rfl

/-! ## The main stage -/

/-- The main stage compiled from rules, for some hash-map iteration order. -/
def MainStage (sys : Sys) (ctx : TableCtx) (d : Direction) (rules : List Anchored) (p : Primary) : Prop :=
  ∃ p₀, Primary.compile sys ctx d rules = .ok p₀ ∧ p₀.Same p

theorem Primary.Same.signs {p p' : Primary} (h : p.Same p') : p'.indicators.signs = p.indicators.signs := by
  have h1 := h.letsign
  have h2 := h.nocontract
  rw [h.indicators]
  unfold Indicators.signs
  simp only
  cases ea : p.indicators.letsign <;> cases ea' : p'.indicators.letsign <;>
    cases eb : p.indicators.nocontract <;> cases eb' : p'.indicators.nocontract <;>
    rw [ea, ea'] at h1 <;> rw [eb, eb'] at h2 <;> simp only [OptionRel] at h1 h2 <;>
    simp only [h1, h2]
  all_goals first | rw [h1.2, h2.2] | rw [h1.2] | rw [h2.2] | rfl

namespace MainStage

variable {sys : Sys} {ctx : TableCtx} {d : Direction} {rules : List Anchored} {p : Primary}

theorem built (h : MainStage sys ctx d rules p) : Built (ctx.prim d) d (tableOps ctx d rules) p.table := by
  obtain ⟨p₀, h, hs⟩ := h
  exact ⟨p₀.table, (compile_compiled h).table, hs.table⟩

theorem triggers (h : MainStage sys ctx d rules p) : p.triggers = triggersOf rules := by
  obtain ⟨p₀, h, hs⟩ := h
  rw [hs.others]
  exact (compile_compiled h).triggers

theorem classes (h : MainStage sys ctx d rules p) : p.classes = ctx.classes := by
  obtain ⟨p₀, h, hs⟩ := h
  rw [hs.others]
  exact (compile_compiled h).classes

theorem signs (h : MainStage sys ctx d rules p) : ∀ t ∈ p.indicators.signs, SignOf rules t := by
  obtain ⟨p₀, h, hs⟩ := h
  rw [hs.signs]
  exact (compile_compiled h).signs_from_rules

theorem constrainers (h : MainStage sys ctx d rules p) : (∀ c, p.constrainers.caps = some c → c.Wf) ∧
    (∀ c, p.constrainers.backNumeric = some c → c.Wf) ∧ ∀ x, p.constrainers.hyphenation = some x → x.1.Wf := by
  obtain ⟨p₀, h, hs⟩ := h
  rw [hs.others]
  exact (compile_compiled h).constrainers_ok

/-- The indications given to the loop of the main stage read nothing. -/
theorem ind_empty (h : MainStage sys ctx d rules p) {lower : Char → List Char} {input : Text} {spans : List Span}
    {ind : List (List Resolved)} (hi : p.indicators.precompute lower input spans = .ok ind) :
    ∀ (pos : Nat) (r : Resolved), r ∈ (ind[pos]?).getD [] → r.input = [] := by
  intro pos r hr
  obtain ⟨q, -, dots, -, e⟩ := h.signs r (precompute_signs _ _ _ _ _ hi pos r hr)
  rw [e]
  rfl

/-- The spans the main stage works with. -/
theorem enriched (h : MainStage sys ctx d rules p) (input : Text) (spans : List Span)
    (hns : ∀ t ∈ triggersOf rules, ∀ pos c, OccursAt t input pos → input[pos]? = some c → ctx.classes.isWhitespace c = false) :
    ∃ e, ∀ e', (if p.triggers.isEmpty then e' = spans else Enriches p.triggers p.classes.isWhitespace input spans e') ↔ e' = e := by
  rw [h.triggers, h.classes]
  split
  · exact ⟨spans, fun _ => Iff.rfl⟩
  · obtain ⟨extra, he, -⟩ := C30_words_partial (triggersOf rules) ctx.classes.isWhitespace input spans hns
    exact ⟨_, he⟩

/-- The main stage has exactly one trace, unless a trigger occurs at a space. -/
theorem total (h : MainStage sys ctx d rules p) (cs : Case) (input : Text) (spans : List Span)
    (hns : ∀ t ∈ triggersOf rules, ∀ pos c, OccursAt t input pos → input[pos]? = some c → ctx.classes.isWhitespace c = false) :
    ∃ ts, ∀ ts', p.Traces cs input spans ts' ↔ ts' = ts := by
  obtain ⟨e, he⟩ := h.enriched input spans hns
  obtain ⟨hc1, hc2, hc3⟩ := h.constrainers
  obtain ⟨cons, hcons⟩ := C22_constraints_total p.constrainers hc1 hc2 hc3 input e
  obtain ⟨-, ind, -, hind, -⟩ := C22_indicators_total p.indicators cs.lower input e
  obtain ⟨ts, h1, h2⟩ := C09_main_loop_terminates_partial _ d _ p.table h.built cs cons (fun pos => (ind[pos]?).getD [])
    (h.ind_empty hind) input
  refine ⟨ts, ?_⟩
  intro ts'
  constructor
  · rintro ⟨e', cons', ind', g1, g2, g3, g4⟩
    rw [(he e').mp g1] at g2 g3
    rw [hcons] at g2
    rw [hind] at g3
    cases g2
    cases g3
    exact h2 ts' g4
  · rintro rfl
    exact ⟨e, cons, ind, (he e).mpr rfl, hcons, hind, h1⟩

end MainStage

/-! ## All stages -/

/-- Every step of a compiled pipeline is a compiled multipass stage or the compiled main stage. -/
theorem compiles_steps {sys : Sys} {rules : List Anchored} {d : Direction} {steps : List Transform}
    (h : Pipeline.Compiles sys rules d steps) : ∀ s ∈ steps,
      (∃ (t : MultipassTable) (k : PassKind), (s = .pre t ∨ s = .post t) ∧
        compilePass ((TableCtx.compile sys.alpha rules).stageClasses t.stage) (TableCtx.compile sys.alpha rules).swaps d t.stage
          (rulesOf rules d k) = .ok t.patterns) ∨
      ∃ p, s = .primary p ∧ MainStage sys (TableCtx.compile sys.alpha (allowedRules rules d)) d (allowedRules rules d) p := by
  obtain ⟨correct, p, pass2, pass3, pass4, rfl, hp, g1, g2, g3, g4⟩ := C11_stages sys rules d steps h
  intro s hs
  have : s ∈ correct ++ [Transform.primary p] ++ pass2 ++ pass3 ++ pass4 := by
    cases d
    · exact hs
    · exact List.mem_reverse.mp hs
  simp only [List.mem_append, List.mem_singleton] at this
  rcases this with (((hs | hs) | hs) | hs) | hs
  · obtain ⟨t, h1, h2, h3⟩ := g1.mem s hs
    exact Or.inl ⟨t, .correct, Or.inl h1, h2 ▸ h3⟩
  · exact Or.inr ⟨p, hs, hp⟩
  · obtain ⟨t, h1, h2, h3⟩ := g2.mem s hs
    exact Or.inl ⟨t, .pass2, Or.inr h1, h2 ▸ h3⟩
  · obtain ⟨t, h1, h2, h3⟩ := g3.mem s hs
    exact Or.inl ⟨t, .pass3, Or.inr h1, h2 ▸ h3⟩
  · obtain ⟨t, h1, h2, h3⟩ := g4.mem s hs
    exact Or.inl ⟨t, .pass4, Or.inr h1, h2 ▸ h3⟩

/-- **C09, C41** for whole translators.  A compiled table has, for every text and arbitrary typeform spans, exactly one trace
(so the translation terminates without panicking and is determined by the compiled table), provided that no computer-braille
trigger starts with a space character.  (Missing: triggers that start with a space, for which it is false, see
`C30_table_hangs_wrong`.) -/
theorem C09_translation_total_partial (sys : Sys) (rules : List Anchored) (d : Direction) (steps : List Transform)
    (h : Pipeline.Compiles sys rules d steps)
    (htrig : ∀ r ∈ rules, r.rule.AllowedIn d → ∀ chars cons, r.rule = .compbrl chars cons →
      ∃ c cs, chars = c :: cs ∧ (TableCtx.compile sys.alpha (allowedRules rules d)).classes.isWhitespace c = false)
    (cs : Case) (spans : List Span) (input : Text) :
    ∃ tss, ∀ tss', Pipeline.Traces cs spans input steps tss' ↔ tss' = tss := by
  have hns : ∀ (text : Text), ∀ t ∈ triggersOf (allowedRules rules d), ∀ pos c, OccursAt t text pos → text[pos]? = some c →
      (TableCtx.compile sys.alpha (allowedRules rules d)).classes.isWhitespace c = false := by
    intro text t ht pos c hocc hc
    obtain ⟨r, hr, e⟩ := List.mem_filterMap.mp ht
    obtain ⟨hr, ha⟩ := mem_allowed.mp hr
    cases er : r.rule with
    | compbrl chars cons =>
      rw [er] at e
      injection e with e
      subst e
      obtain ⟨c', cs', rfl, hs⟩ := htrig r hr ha chars cons er
      obtain ⟨-, post, hp⟩ := hocc
      have : (text.drop pos)[0]? = some c := by rw [List.getElem?_drop]; exact hc
      rw [hp] at this
      simp at this
      rw [← this]
      exact hs
    | _ => rw [er] at e; cases e
  have hsteps := compiles_steps h
  clear h
  induction steps generalizing input with
  | nil => exact ⟨[], fun _ => Iff.rfl⟩
  | cons s steps ih =>
    have hone : ∃ ts, ∀ ts', s.Traces cs spans input ts' ↔ ts' = ts := by
      rcases hsteps s (List.mem_cons_self ..) with ⟨t, k, hs, hc⟩ | ⟨p, rfl, hp⟩
      · obtain ⟨ts, h1, h2⟩ := C06_multipass_terminates t ⟨_, _, _, _, hc⟩ cs.lower input
        refine ⟨ts, ?_⟩
        intro ts'
        rcases hs with rfl | rfl
        · exact ⟨h2 ts', fun e => e ▸ h1⟩
        · exact ⟨h2 ts', fun e => e ▸ h1⟩
      · exact hp.total cs input spans (hns input)
    obtain ⟨ts, hts⟩ := hone
    obtain ⟨tss, htss⟩ := ih (outputOf ts) (fun x hx => hsteps x (List.mem_cons_of_mem _ hx))
    refine ⟨ts :: tss, ?_⟩
    intro tss'
    constructor
    · rintro ⟨ts', rest, rfl, g1, g2⟩
      rw [(hts ts').mp g1] at g2 ⊢
      rw [(htss rest).mp g2]
    · rintro rfl
      exact ⟨ts, tss, rfl, (hts ts).mpr rfl, (htss tss).mpr rfl⟩

end Louis
