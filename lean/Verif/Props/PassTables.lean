import Verif.Props.PassStage
import Verif.Props.Panics
import Verif.Props.LineGrammar
import Verif.Props.Demo
import Verif.Props.Definitions
import Verif.Lemmas.DecEq

/-!
# C71 and C72 for the lines of tables and whole translators
-/

namespace Louis

/-! ## What can be read from a table -/

theorem quantifier_sound {qs : Text} {q : Option Quantifier} (h : QuantifierSrc qs q) : Quantifier.Sound q := by
  cases h with
  | range ds es v w h h' hlt => exact hlt
  | _ => trivial

mutual
theorem testSrc_written {s : Text} {t : TestInstr} (h : TestSrc s t) : t.Written := by
  cases h with
  | cls name qs q _ _ hq => simpa only [TestInstr.Written] using quantifier_sound hq
  | attributes ds qs attrs q _ _ hq => simpa only [TestInstr.Written] using quantifier_sound hq
  | negate src t h hn hr => simpa only [TestInstr.Written] using ⟨hn, hr, testSrc_written h⟩
  | replace src ts h => simpa only [TestInstr.Written] using testsSrc_written h
  | _ => simp only [TestInstr.Written, Quantifier.Sound]
theorem testsSrc_written {s : Text} {ts : List TestInstr} (h : TestsSrc s ts) : TestsWritten ts := by
  cases h with
  | nil => simp only [TestsWritten]
  | cons src rest t ts h more => simpa only [TestsWritten] using ⟨testSrc_written h, testsSrc_written more⟩
end

theorem actionsSrc_noStep {s : Text} {as : List ActionInstr} (h : ActionsSrc s as) : NoStep as := by
  induction h with
  | nil => intro a ha; cases ha
  | cons src rest a as h _ ih =>
    intro b hb v
    rcases List.mem_cons.1 hb with rfl | hb
    · cases h <;> simp
    · exact ih b hb v

/-- If it is a multipass line, its operands can be written in a table. -/
def Rule.PassWritten : Rule → Prop
  | .pass _ test action _ => TestsWritten test ∧ NoStep action
  | _ => True

theorem pTest_written : P.Ensures pTest TestsWritten := P.Ensures.conv fun s ts _ h => by
  cases hp : parseTest s with
  | error e => rw [hp] at h; cases h
  | ok qs =>
    rw [hp, Except.toOption, Option.some.injEq] at h
    subst h
    exact testsSrc_written ((C55_test_grammar s qs).mp hp).1

theorem pAction_noStep : P.Ensures pAction NoStep := P.Ensures.conv fun s as _ h => by
  cases hp : parseAction s with
  | error e => rw [hp] at h; cases h
  | ok qs =>
    rw [hp, Except.toOption, Option.some.injEq] at h
    subst h
    exact actionsSrc_noStep ((C55_action_grammar s qs).mp hp).1

theorem operands_passWritten (op : Opcode) (cons : RuleCons) (withs : List WithClass) :
    P.Ensures (operands op cons withs) Rule.PassWritten := by
  cases op <;> simp only [operands] <;>
    first
    | exact P.Ensures.pure trivial
    | (repeat
        first
        | exact P.Ensures.pure trivial
        | exact P.Ensures.pure ⟨by assumption, by assumption⟩
        | refine P.Ensures.bind pTest_written fun _ _ => ?_
        | refine P.Ensures.bind pAction_noStep fun _ _ => ?_
        | refine P.Ensures.bind pManyNames_ensures fun _ _ => ?_
        | refine P.Ensures.bind P.Ensures.require fun _ _ => ?_
        | refine P.Ensures.bind pNext_ensures fun _ _ => ?_
        | refine P.Ensures.bind pNextOpt_ensures fun _ _ => ?_
        | refine P.Ensures.bind P.Ensures.any fun _ _ => ?_)

theorem parseLine_passWritten {line : Text} {rule : Rule} (h : parseLine line = some rule) : rule.PassWritten := by
  rw [parseLine, Option.map_eq_some_iff] at h
  obtain ⟨⟨r, rest⟩, h, rfl⟩ := h
  rw [pRule] at h
  split at h
  · cases h
  · next cons ts hc =>
    have h1 := (pConstraints_ensures _ _ _ (tokens_ne line) hc).2
    have h2 := pWithMatches_ne _ (pWithClasses_ne ts h1)
    simp only at h
    split at h
    · cases h
    · next word us hw =>
      rw [hw] at h2
      split at h
      · cases h
      · split at h
        · exact (operands_passWritten _ _ _ us r rest (fun t ht => h2 t (by simp [ht])) h).1
        · cases h

theorem parseTable_passWritten {text : Text} {path : Option Text} {rules : List (Rule × Loc)}
    (h : parseTable text path = .ok rules) : ∀ r ∈ rules, r.1.PassWritten := by
  intro r hr
  obtain ⟨line, -, -, hp⟩ := (mem_parseTable h r.1).mp ⟨r.2, hr⟩
  exact parseLine_passWritten hp

theorem inlined_passWritten {fs : Files} {I : Text → List (Rule × Loc) → Prop} (hI : ∀ f o, I f o → ∀ r ∈ o, r.1.PassWritten)
    {rules out : List (Rule × Loc)} (h : Inlined fs I rules out) (hr : ∀ r ∈ rules, r.1.PassWritten) :
    ∀ r ∈ out, r.1.PassWritten := by
  induction h with
  | done => exact hr
  | rule r loc rest out hn more ih =>
    intro x hx
    rw [List.mem_cons] at hx
    rcases hx with rfl | hx
    · exact hr _ (by simp)
    · exact ih (fun y hy => hr y (by simp [hy])) x hx
  | dictionary file path loc rest out hd hf more ih =>
    intro x hx
    rw [List.mem_cons] at hx
    rcases hx with rfl | hx
    · trivial
    · exact ih (fun y hy => hr y (by simp [hy])) x hx
  | table file loc rest inner out hd hi more ih =>
    intro x hx
    rw [List.mem_append] at hx
    rcases hx with hx | hx
    · exact hI _ _ hi x hx
    · exact ih (fun y hy => hr y (by simp [hy])) x hx

theorem expandsTo_passWritten {fs : Files} : ∀ {n : Nat} {file : Text} {out : List (Rule × Loc)}, ExpandsTo fs n file out →
    ∀ r ∈ out, r.1.PassWritten
  | 0, _, _, h => h.elim
  | n + 1, file, out, h => by
    obtain ⟨path, rules, -, -, ht, hi⟩ := h
    refine inlined_passWritten (fun f o h => expandsTo_passWritten h) hi ?_
    rw [tableFile] at ht
    split at ht
    · cases ht
    · split at ht
      · next rules' hp => rw [Except.ok.injEq] at ht; subst ht; exact parseTable_passWritten hp
      · cases ht

theorem allTables_passWritten {fs : Files} : ∀ {files : List Text} {rules : List (Rule × Loc)}, allTables fs files = .ok rules →
    ∀ r ∈ rules, r.1.PassWritten
  | [], rules, h => by rw [allTables, Except.ok.injEq] at h; subst h; simp
  | file :: files, rules, h => by
    rw [allTables] at h
    split at h
    · cases h
    · next rs he =>
      split at h
      · cases h
      · next more hm =>
        rw [Except.ok.injEq] at h
        subst h
        intro r hr
        rw [List.mem_append] at hr
        rcases hr with hr | hr
        · exact expandsTo_passWritten (expandTable_sound fs _ _ _ _ he) r hr
        · exact allTables_passWritten hm r hr

/-- The tables a translator can be made from: the text of one, or files with all they include. -/
inductive TableRules : List Anchored → Prop
  | source (text : Text) (path : Option Text) (rules : List (Rule × Loc)) (h : parseTable text path = .ok rules) :
      TableRules (anchor rules)
  | files (fs : Files) (files : List Text) (rules : List (Rule × Loc)) (h : allTables fs files = .ok rules) :
      TableRules (anchor rules)

theorem TableRules.passWritten {rules : List Anchored} (h : TableRules rules) : ∀ r ∈ rules, r.rule.PassWritten := by
  intro r hr
  cases h with
  | source text path rules h => obtain ⟨loc, hm⟩ := mem_anchor hr; exact parseTable_passWritten h _ hm
  | files fs files rules h => obtain ⟨loc, hm⟩ := mem_anchor hr; exact allTables_passWritten h _ hm

/-! ## Stages of translators -/

/-- The stage in which the lines of an opcode are used. -/
def PassKind.stage : PassKind → Stage
  | .correct => .pre
  | .context => .main
  | .pass2 => .post1
  | .pass3 => .post2
  | .pass4 => .post3

/-- The multipass stage of an opcode: its lines in the table, without those excluded by `nofor` or `noback`; backward only
those that write a string or dots.  Classes are those of the characters before, and those of the cells after the main
stage. -/
def passTable (sys : Sys) (rules : List Anchored) (d : Direction) (k : PassKind) : PassTable :=
  ⟨(TableCtx.compile sys.alpha rules).stageClasses k.stage, (TableCtx.compile sys.alpha rules).swaps, k.stage,
    usedLines d (passRules k (allowedRules rules d))⟩

/-- What an opcode contributes to a translator: nothing if the table has no line with it for the direction; otherwise one
step, which makes of every text what the lines say. -/
inductive PassSteps (sys : Sys) (rules : List Anchored) (d : Direction) (k : PassKind) : List Transform → Prop
  | none (h : ∀ r ∈ rules, r.rule.AllowedIn d → ∀ test action cons, r.rule ≠ .pass k test action cons) : PassSteps sys rules d k []
  | one (step : Transform) (hr : ∃ r ∈ rules, r.rule.AllowedIn d ∧ ∃ test action cons, r.rule = .pass k test action cons)
      (h : ∀ cs spans input ts, step.Traces cs spans input ts ↔ (passTable sys rules d k).Run input ts) :
      PassSteps sys rules d k [step]

theorem passRules_written {rules : List Anchored} (h : ∀ r ∈ rules, r.rule.PassWritten) (d : Direction) (k : PassKind) :
    ∀ r ∈ passRules k (allowedRules rules d), r.Written := by
  intro r hr
  simp only [passRules, List.mem_filterMap, allowedRules, List.mem_filter] at hr
  obtain ⟨a, ⟨ha, -⟩, he⟩ := hr
  have := h a ha
  split at he
  · next k' test action cons e =>
    rw [e] at this
    split at he
    · cases he; exact ⟨this.1, this.2⟩
    · cases he
  · cases he

theorem StageOf.passSteps {sys : Sys} {rules : List Anchored} {d : Direction} {k : PassKind} {l : List Transform}
    {wrap : MultipassTable → Transform} (hwrap : wrap = .pre ∨ wrap = .post) (hw : ∀ r ∈ rules, r.rule.PassWritten)
    (h : StageOf (TableCtx.compile sys.alpha rules) rules d k k.stage wrap l) : PassSteps sys rules d k l := by
  by_cases hp : ∃ r ∈ rules, r.rule.AllowedIn d ∧ ∃ test action cons, r.rule = .pass k test action cons
  · obtain ⟨⟨ps, stage⟩, rfl, rfl, h2⟩ := h.present hp
    refine .one _ hp fun cs spans input ts => ?_
    have := C72_stage_exact _ _ d k.stage _ ps h2 (passRules_written hw d k) cs.lower input ts
    rcases hwrap with rfl | rfl
    · exact this
    · exact this
  · have hn : ∀ r ∈ rules, r.rule.AllowedIn d → ∀ test action cons, r.rule ≠ .pass k test action cons :=
      fun r hr ha test action cons e => hp ⟨r, hr, ha, test, action, cons, e⟩
    rw [h.absent hn]
    exact .none hn

/-- **C72.** A translator made from tables consists of the steps for `correct`, the main stage, and the steps for `pass2`,
`pass3` and `pass4`, in this order (backward: in the reverse order), and each step but the main one makes of every text
exactly what the lines of its opcode say. -/
theorem C72_translator (sys : Sys) (rules : List Anchored) (hr : TableRules rules) (d : Direction) (steps : List Transform)
    (h : Pipeline.Compiles sys rules d steps) : ∃ correct p pass2 pass3 pass4,
      steps = inOrder d (correct ++ [.primary p] ++ pass2 ++ pass3 ++ pass4) ∧
      PassSteps sys rules d .correct correct ∧ PassSteps sys rules d .pass2 pass2 ∧ PassSteps sys rules d .pass3 pass3 ∧
      PassSteps sys rules d .pass4 pass4 := by
  obtain ⟨correct, p, pass2, pass3, pass4, e, -, h1, h2, h3, h4⟩ := C11_stages sys rules d steps h
  have hw := hr.passWritten
  exact ⟨correct, p, pass2, pass3, pass4, e, h1.passSteps (.inl rfl) hw, h2.passSteps (.inr rfl) hw, h3.passSteps (.inr rfl) hw,
    h4.passSteps (.inr rfl) hw⟩

/-! ## Concrete cases -/

/-- `"a"$l.["c"]"d"` on "abccde": the letters are read as far as possible, then given up one after the other until the
rest of the test fits. -/
example : stretchOf [(.letter, 'a'), (.letter, 'b'), (.letter, 'c'), (.letter, 'd'), (.letter, 'e')] Env.new true
    [.string ['a'], .attributes [.cls .letter] (some .oneOrMore), .replace [.string ['c']], .string ['d']] "abccde".toList =
    some ⟨"abc".toList, "c".toList, "d".toList⟩ := by decide +kernel

/-- A table with a line that looks ahead of its brackets, one that looks back, one that inserts and one that sets and tests a
variable. -/
def passesTable : Text := "lowercase a 1\nlowercase b 12\nlowercase c 14\nlowercase d 145\nlowercase e 15\n\
correct \"a\"$l.[\"c\"]\"d\" \"e\"#1=2\ncorrect []#1=2\"de\" \"bb\"\n".toList

def passesRules : List Anchored := match parseTable passesTable none with
  | .ok rules => anchor rules
  | .error _ => []

theorem passesRules_table : TableRules passesRules := by
  have h : ∃ rules, parseTable passesTable none = .ok rules := by
    have : (match parseTable passesTable none with | .ok _ => true | .error _ => false) = true := by decide +kernel
    split at this
    · next rules h => exact ⟨rules, h⟩
    · cases this
  obtain ⟨rules, h⟩ := h
  have : passesRules = anchor rules := by unfold passesRules; rw [h]
  rw [this]
  exact .source _ _ _ h

/-- The items a stage makes, for a number of steps. -/
def PassTable.trace (T : PassTable) (input : Text) : Nat → List Resolved → List Resolved
  | 0, items => items
  | n + 1, items => match T.next input items with
    | none => items
    | some c => T.trace input n (items ++ [c])

/-- "abccde" becomes "abcebbde": the replacement offered at the first place is made three places later, sets a variable, and
so the insertion before "de" is made, once. -/
example : outputOf ((passTable demoSys passesRules .forward .correct).trace "abccde".toList 10 []) = "abcebbde".toList := by
  decide +kernel

/-- The table compiles in both directions. -/
example : ([Direction.forward, .backward].all fun d => match Pipeline.compile demoSys passesRules d with
    | .ok steps => steps.length == 2
    | .error _ => false) = true := by decide +kernel

end Louis
