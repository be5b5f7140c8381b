import Verif.Props.HashOrder
import Verif.Props.MainTables
import Verif.Props.PassTables
import Verif.Props.Demo

/-!
# C41 and C73 for whole translators
-/

namespace Louis

/-! ## Signs do not depend on the order of hash maps -/

theorem contractionAt_same {t t' t₀ : Trie} (h : t₀.SameEntries t) (h' : t₀.SameEntries t') (lower : Char → List Char)
    (rest : Text) (prev : Option Char) : contractionAt t lower rest prev = contractionAt t' lower rest prev := by
  have hm : ∀ tr, tr ∈ t.find lower rest prev ↔ tr ∈ t'.find lower rest prev := by
    intro tr
    rw [mem_find t rest prev h.1, mem_find t' rest prev h'.1]
    simp only [h.2, h'.2]
  unfold contractionAt
  cases e : t.find lower rest prev with
  | nil =>
    cases e' : t'.find lower rest prev with
    | nil => rfl
    | cons x l =>
      have := (hm x).2 (by rw [e']; simp)
      rw [e] at this
      cases this
  | cons x l =>
    cases e' : t'.find lower rest prev with
    | nil =>
      have := (hm x).1 (by rw [e]; simp)
      rw [e'] at this
      cases this
    | cons => rfl

theorem letsign_same {l l' l₀ : LetIndicator} (h : l₀.Same l) (h' : l₀.Same l') (lower : Char → List Char) (text : Text) :
    l.precompute lower text = l'.precompute lower text := by
  obtain ⟨h1, h2⟩ := h
  obtain ⟨h1', h2'⟩ := h'
  have hc := contractionAt_same h1 h1' lower
  rw [h2, h2']
  unfold LetIndicator.precompute LetIndicator.contracted
  simp only [hc]
  rfl

theorem nocontract_same {l l' l₀ : NocIndicator} (h : l₀.Same l) (h' : l₀.Same l') (lower : Char → List Char) (text : Text) :
    l.precompute lower text = l'.precompute lower text := by
  obtain ⟨h1, h2⟩ := h
  obtain ⟨h1', h2'⟩ := h'
  have hc := contractionAt_same h1 h1' lower
  rw [h2, h2']
  unfold NocIndicator.precompute
  simp only [hc]

theorem indicators_same {p p' p₀ : Primary} (h : p₀.Same p) (h' : p₀.Same p') (lower : Char → List Char) (text : Text)
    (spans : List Span) : p.indicators.precompute lower text spans = p'.indicators.precompute lower text spans := by
  have a := h.letsign
  have a' := h'.letsign
  have b := h.nocontract
  have b' := h'.nocontract
  have i1 := h.indicators
  have i2 := h'.indicators
  have c1 : p'.indicators.comp = p.indicators.comp := by rw [i1, i2]
  have c2 : p'.indicators.emph = p.indicators.emph := by rw [i1, i2]
  have c3 : p'.indicators.num = p.indicators.num := by rw [i1, i2]
  have c4 : p'.indicators.caps = p.indicators.caps := by rw [i1, i2]
  unfold Indicators.precompute Indicators.pairs
  rw [c1, c2, c3, c4]
  cases x : p₀.indicators.letsign <;> cases y : p.indicators.letsign <;> cases z : p'.indicators.letsign <;>
    rw [x, y] at a <;> rw [x, z] at a' <;> simp only [OptionRel] at a a' <;>
    cases u : p₀.indicators.nocontract <;> cases v : p.indicators.nocontract <;> cases w : p'.indicators.nocontract <;>
    rw [u, v] at b <;> rw [u, w] at b' <;> simp only [OptionRel] at b b'
  all_goals dsimp only
  all_goals first
    | rfl
    | rw [letsign_same a a', nocontract_same b b']
    | rw [letsign_same a a']
    | rw [nocontract_same b b']

/-! ## The main stage -/

/-- However the main stage of the table goes through the text, no two different replacements compete. -/
def MainUntied (sys : Sys) (ctx : TableCtx) (d : Direction) (rules : List Anchored) (cs : Case) (spans : List Span) (text : Text) :
    Prop :=
  ∀ L flags made, (ctx.mainTable d rules).Lists cs.lower L → FlagsOf sys ctx d rules spans text flags →
    (ctx.mainTable d rules).Run L cs.lower flags text made →
    ∀ i ≤ made.length, (ctx.mainTable d rules).Untied cs.lower flags text (made.take i)

theorem mainStage_same {sys : Sys} {ctx : TableCtx} {d : Direction} {rules : List Anchored} {p p' p₀ : Primary}
    (hc : Primary.compile sys ctx d rules = .ok p₀) (h : p₀.Same p) (h' : p₀.Same p') (hw : ∀ r ∈ rules, r.rule.PassWritten)
    (hl : PlainMatches rules) {cs : Case} {text : Text} {spans : List Span} (hu : MainUntied sys ctx d rules cs spans text)
    {ts : List Resolved} (ht : p.Traces cs text spans ts) : p'.Traces cs text spans ts := by
  have m : MainStage sys ctx d rules p := ⟨p₀, hc, h⟩
  have m' : MainStage sys ctx d rules p' := ⟨p₀, hc, h'⟩
  obtain ⟨all, flags, ind, h1, h2, h3, h4⟩ := ht
  obtain ⟨L, hL, made, hrun, -, htr⟩ := C73_main_exact _ _ _ _ m.built (plain_table hw hl) cs flags _ (m.ind_empty h3) text
  have o := h.others
  have o' := h'.others
  refine ⟨all, flags, ind, ?_, ?_, ?_, ?_⟩
  · have e1 : p'.triggers = p.triggers := by rw [o, o']
    have e2 : p'.classes = p.classes := by rw [o, o']
    rw [e1, e2]
    exact h1
  · have e1 : p'.constrainers = p.constrainers := by rw [o, o']
    rw [e1]
    exact h2
  · rw [← indicators_same h h']
    exact h3
  · rw [C41_untied _ _ _ (plain_table hw hl) cs flags _ (m.ind_empty h3) text L hL made hrun
      (hu L flags made hL (flags_table m h1 h2) hrun) _ m'.built]
    exact (htr ts).1 h4

/-- Lines that state no condition on their neighbours yield entries for everywhere. -/
theorem anywhere_table {ctx : TableCtx} {d : Direction} {rules : List Anchored}
    (h : ∀ r ∈ rules, r.rule.conditions ctx.classes = 0) (cs : Case) (flags : Constraints) (text : Text) (made : List Made) :
    (ctx.mainTable d rules).Untied cs.lower flags text made := by
  have zero : ∀ e : TrieRule, e.conditions = 0 → e.Anywhere := by
    intro e he
    unfold TrieRule.conditions at he
    obtain ⟨c, dts, b, a, cn, pr, st, og⟩ := e
    cases b <;> cases a <;> cases cn <;> simp_all [TrieRule.Anywhere]
  have key : ∀ b, ∀ op ∈ tableOps ctx d rules, ∀ e, opEntry d b op = some e → e.Anywhere := by
    intro b op hop e he
    obtain ⟨r, hr, -, hc⟩ := tableOps_count op hop
    cases op with
    | char c dots prec origin =>
      simp only [opEntry] at he
      split at he
      · cases he; exact ⟨rfl, rfl, rfl⟩
      · cases he
    | rule b' x =>
      simp only [opEntry] at he
      split at he
      · cases he; exact zero _ (hc.1.trans (h r hr))
      · cases he
    | _ => cases he
  refine MainTable.untied ?_ ?_ ?_ _ _ _ _
  · intro e he
    rw [show (ctx.mainTable d rules).entries = _ from trieRules_eq d _] at he
    obtain ⟨op, hop, he⟩ := List.mem_filterMap.1 he
    exact key _ op hop e he
  · intro e he
    rw [show (ctx.mainTable d rules).unbroken = _ from nocrossRules_eq d _] at he
    obtain ⟨op, hop, he⟩ := List.mem_filterMap.1 he
    exact key _ op hop e he
  · intro e he
    obtain ⟨op, hop, he⟩ := List.mem_filterMap.1 (show e ∈ comp6Rules (tableOps ctx d rules) from he)
    obtain ⟨r, hr, -, hc⟩ := tableOps_count op hop
    cases op with
    | comp6 x => cases he; exact zero _ (hc.1.trans (h r hr))
    | _ => cases he

/-! ## Translators -/

theorem traces_same {cs : Case} {spans : List Span} {s₀ : List Transform}
    (hp : ∀ p₀, .primary p₀ ∈ s₀ → ∀ p p', p₀.Same p → p₀.Same p' → ∀ text ts, p.Traces cs text spans ts →
      p'.Traces cs text spans ts) :
    ∀ {steps steps' : List Transform}, SameSteps s₀ steps → SameSteps s₀ steps' → ∀ {input tss},
      Pipeline.Traces cs spans input steps tss → Pipeline.Traces cs spans input steps' tss := by
  induction s₀ with
  | nil =>
    intro steps steps' h h' input tss ht
    cases h
    cases h'
    exact ht
  | cons s s₀ ih =>
    intro steps steps' h h' input tss ht
    cases h with
    | cons a as =>
      cases h' with
      | cons b bs =>
        obtain ⟨ts, rest, rfl, h1, h2⟩ := ht
        refine ⟨ts, rest, rfl, ?_, ih (fun p₀ hp₀ => hp p₀ (List.mem_cons_of_mem _ hp₀)) as bs h2⟩
        cases a with
        | pre t => cases b; exact h1
        | post t => cases b; exact h1
        | primary hs =>
          cases b with
          | primary hs' => exact hp _ (List.mem_cons_self ..) _ _ hs hs' _ _ h1

/-- **C41**, for translators.  If no two different replacements ever compete in the main stage, all that can be compiled from
the table gives the same trace for the text: the order of hash maps is not observable. -/
theorem C41_translator (sys : Sys) (rules : List Anchored) (hr : TableRules rules) (hl : PlainMatches rules) (d : Direction)
    (steps steps' : List Transform) (h : Pipeline.Compiles sys rules d steps) (h' : Pipeline.Compiles sys rules d steps')
    (cs : Case) (spans : List Span)
    (hu : ∀ text, MainUntied sys (TableCtx.compile sys.alpha (allowedRules rules d)) d (allowedRules rules d) cs spans text)
    (input : Text) (tss : List (List Resolved)) :
    Pipeline.Traces cs spans input steps tss ↔ Pipeline.Traces cs spans input steps' tss := by
  obtain ⟨s₀, hc, hs⟩ := h
  obtain ⟨s₁, hc', hs'⟩ := h'
  rw [hc] at hc'
  cases hc'
  have key : ∀ p₀, .primary p₀ ∈ s₀ → ∀ p p', p₀.Same p → p₀.Same p' → ∀ text ts, p.Traces cs text spans ts →
      p'.Traces cs text spans ts := by
    intro p₀ hm p p' hs hs' text ts ht
    obtain ⟨correct, q, pass2, pass3, pass4, h1, h2, h3, h4, h5, e⟩ := compile_parts hc
    have hq : Primary.compile sys (TableCtx.compile sys.alpha (allowedRules rules d)) d (allowedRules rules d) = .ok p₀ := by
      have g1 : StageOf _ rules d .correct .pre .pre correct := stageOf h1
      have g3 : StageOf _ rules d .pass2 .post1 .post pass2 := stageOf h3
      have g4 : StageOf _ rules d .pass3 .post2 .post pass3 := stageOf h4
      have g5 : StageOf _ rules d .pass4 .post3 .post pass4 := stageOf h5
      have hm' : Transform.primary p₀ ∈ correct ++ [.primary q] ++ pass2 ++ pass3 ++ pass4 := by
        rw [e] at hm
        cases d with
        | forward => exact hm
        | backward => exact List.mem_reverse.1 hm
      simp only [List.mem_append, List.mem_singleton] at hm'
      have no : ∀ {c k st w l}, StageOf c rules d k st w l → (∀ t, w t = .pre t ∨ w t = .post t) → Transform.primary p₀ ∉ l := by
        intro c k st w l g hw hin
        obtain ⟨t, e, -⟩ := g.mem _ hin
        rcases hw t with e' | e' <;> rw [e'] at e <;> cases e
      rcases hm' with (((hm' | hm') | hm') | hm') | hm'
      · exact absurd hm' (no g1 fun t => .inl rfl)
      · cases hm'; exact h2
      · exact absurd hm' (no g3 fun t => .inr rfl)
      · exact absurd hm' (no g4 fun t => .inr rfl)
      · exact absurd hm' (no g5 fun t => .inr rfl)
    refine mainStage_same hq hs hs' ?_ ?_ (hu text) ht
    · intro r hr'; exact hr.passWritten r (List.mem_filter.1 hr').1
    · intro r hr'; exact hl r (List.mem_filter.1 hr').1
  exact ⟨traces_same key hs hs', traces_same key hs' hs⟩

/-- **C41.** A translator whose lines state no conditions on the characters around their text is a function of table, direction
and text, whatever `match`, `context`, `correct` and `pass` lines there are. -/
theorem C41_translator_unconditioned (sys : Sys) (rules : List Anchored) (hr : TableRules rules) (hl : PlainMatches rules)
    (d : Direction)
    (hn : ∀ r ∈ rules, r.rule.AllowedIn d → r.rule.conditions (TableCtx.compile sys.alpha (allowedRules rules d)).classes = 0)
    (steps steps' : List Transform) (h : Pipeline.Compiles sys rules d steps) (h' : Pipeline.Compiles sys rules d steps')
    (cs : Case) (spans : List Span) (input : Text) (tss : List (List Resolved)) :
    Pipeline.Traces cs spans input steps tss ↔ Pipeline.Traces cs spans input steps' tss := by
  refine C41_translator sys rules hr hl d steps steps' h h' cs spans (fun text L flags made _ _ _ i _ => ?_) input tss
  refine anywhere_table (fun r hr' => ?_) cs flags text _
  obtain ⟨hr', ha⟩ := mem_allowed.1 hr'
  exact hn r hr' ha

/-- The trace consists of the items that the lines say, item by item, and of the signs they demand. -/
def TracesAsSaid (sys : Sys) (ctx : TableCtx) (d : Direction) (rules : List Anchored) (cs : Case) (spans : List Span) (text : Text)
    (ts : List Resolved) : Prop :=
  ∃ L flags made all comp emph num letters caps noc,
    (ctx.mainTable d rules).Lists cs.lower L ∧ FlagsOf sys ctx d rules spans text flags ∧
    AllSpans ctx rules text spans all ∧ TableSigns ctx cs.lower rules text all comp emph num letters caps noc ∧
    (ctx.mainTable d rules).Run L cs.lower flags text made ∧
    ts = (ctx.mainTable d rules).trace cs flags
      (fun pos => atPos pos comp ++ atPos pos emph ++ atPos pos num ++ atPos pos letters ++ atPos pos caps ++ atPos pos noc) made

/-- **C73**, for translators: the steps for `correct`, the main stage and the steps for `pass2`, `pass3` and `pass4`, in this
order (backward: in the reverse order); each makes of every text what the lines of the table say. -/
theorem C73_translator (sys : Sys) (rules : List Anchored) (hr : TableRules rules) (hl : PlainMatches rules) (d : Direction)
    (steps : List Transform) (h : Pipeline.Compiles sys rules d steps) : ∃ correct main pass2 pass3 pass4,
      steps = inOrder d (correct ++ [main] ++ pass2 ++ pass3 ++ pass4) ∧
      PassSteps sys rules d .correct correct ∧ PassSteps sys rules d .pass2 pass2 ∧ PassSteps sys rules d .pass3 pass3 ∧
      PassSteps sys rules d .pass4 pass4 ∧
      ∀ cs spans text ts, main.Traces cs spans text ts →
        TracesAsSaid sys (TableCtx.compile sys.alpha (allowedRules rules d)) d (allowedRules rules d) cs spans text ts := by
  obtain ⟨correct, p, pass2, pass3, pass4, e, hm, h1, h2, h3, h4⟩ := C11_stages sys rules d steps h
  have hw := hr.passWritten
  refine ⟨correct, .primary p, pass2, pass3, pass4, e, h1.passSteps (.inl rfl) hw, h2.passSteps (.inr rfl) hw,
    h3.passSteps (.inr rfl) hw, h4.passSteps (.inr rfl) hw, fun cs spans text ts ht => ?_⟩
  exact C73_table sys _ d _ p hm (fun r hr' => hw r (List.mem_filter.1 hr').1) (fun r hr' => hl r (List.mem_filter.1 hr').1)
    cs text spans ts ht

/-! ## Concrete cases -/

/-- A table with a line for a piece of text, a `match` line, a `context` line and a line that is used where no hyphen may
stand. -/
def mixedTable : Text := "space \\s 0\nlowercase a 1\nlowercase b 12\nlowercase c 14\nlowercase d 145\nlowercase e 15\n\
always ab 3\nmatch c+ ab d* 4\ncontext \"b\"[\"c\"]\"d\" @6\nnocross always de 5\n".toList

def mixedRules : List Anchored := match parseTable mixedTable none with
  | .ok rules => anchor rules
  | .error _ => []

theorem mixedRules_table : TableRules mixedRules := by
  have h : ∃ rules, parseTable mixedTable none = .ok rules := by
    have : (match parseTable mixedTable none with | .ok _ => true | .error _ => false) = true := by decide +kernel
    split at this
    · next rules h => exact ⟨rules, h⟩
    · cases this
  obtain ⟨rules, h⟩ := h
  have : mixedRules = anchor rules := by unfold mixedRules; rw [h]
  rw [this]
  exact .source _ _ _ h

theorem mixedRules_plain : PlainMatches mixedRules := by
  have h : (mixedRules.all fun r => match r.rule with
      | .matchRule pre _ post _ _ => pre == [.oneOrMore (.characters ['c'])] && post == [.zeroOrMore (.characters ['d'])]
      | _ => true) = true := by decide +kernel
  intro r hr pre chars post b cons e
  have := List.all_eq_true.1 h r hr
  rw [e] at this
  simp only [Bool.and_eq_true, beq_iff_eq] at this
  obtain ⟨rfl, rfl⟩ := this
  simp [PlainLoopsAll, Pattern.PlainLoops, Pattern.advances, advancesAny]

/-- No line of the table states a condition. -/
example : (mixedRules.all fun r =>
    r.rule.conditions (TableCtx.compile demoSys.alpha (allowedRules mixedRules .forward)).classes == 0) = true := by
  decide +kernel

/-- "ab" after "cc" is translated by the `match` line, read from two places before; otherwise by its own line.  "c" between "b"
and "d" is translated by the `context` line.  "de" is one cell. -/
example : SourceTranslates demoSys ascii mixedTable .forward [] "ccab ab bcde".toList "⠉⠉⠈⠀⠄⠀⠃⠠⠐".toList :=
  runSource_sound (fuel := 40) (by decide +kernel)

end Louis
