import Verif.Props.CheckGrammar
import Verif.Lemmas.Each
import Verif.Props.Library
import Verif.Props.Includes
import Verif.Props.Demo
import Verif.Lemmas.Sort

/-!
# C63, C66 and C67: running tests, the reports and queries of the command line
-/

namespace Louis

open Regexp (Fault)

theorem isFailure_iff (x : Xfail) (d : Direction) : x.isFailure d = true ↔ MarkedFailing x d := by
  unfold MarkedFailing
  cases x <;> cases d <;> simp [Xfail.isFailure]

theorem verdict_iff (t : Test) (d : Direction) (actual : Text) (r : TestResult) :
    r = t.verdict d actual ↔ Verdict t.input t.expected actual t.xfail d r := by
  have hf := isFailure_iff t.xfail d
  unfold Test.verdict
  constructor
  · rintro rfl
    by_cases e : actual = t.expected
    · by_cases h : t.xfail.isFailure d = true
      · simpa [e, h] using Verdict.unexpectedSuccess (input := t.input) (actual := t.expected) rfl (hf.1 h)
      · simpa [e, h] using Verdict.success (input := t.input) (actual := t.expected) rfl (fun m => h (hf.2 m))
    · by_cases h : t.xfail.isFailure d = true
      · simpa [e, h] using Verdict.expectedFailure (input := t.input) e (hf.1 h)
      · simpa [e, h] using Verdict.failure (input := t.input) e (fun m => h (hf.2 m))
  · intro h
    cases h with
    | success e h => have : t.xfail.isFailure d = false := by simpa using fun m => h (hf.1 m)
                     simp [e, this]
    | unexpectedSuccess e h => simp [e, hf.2 h]
    | expectedFailure e h => simp [e, hf.2 h]
    | failure e h => have : t.xfail.isFailure d = false := by simpa using fun m => h (hf.1 m)
                     simp [e, this]

theorem checks_iff (cs : Case) (p : List Transform) (disp : DisplayTable) (d : Direction) (t : Test) (r : TestResult) :
    t.Checks cs p disp d r ↔ ∃ actual, (match d with
      | .forward => ∃ braille, Pipeline.Translates cs t.emphasis t.input p braille ∧ actual = disp.translate braille
      | .backward => ∃ braille, braille = disp.translate t.input ∧ Pipeline.Translates cs t.emphasis braille p actual) ∧
      Verdict t.input t.expected actual t.xfail d r := by
  unfold Test.Checks
  constructor
  · rintro ⟨a, e, h⟩
    refine ⟨a, ?_, (verdict_iff _ _ _ _).1 e⟩
    cases d with
    | forward => exact h
    | backward => exact ⟨_, rfl, h⟩
  · rintro ⟨a, h, v⟩
    refine ⟨a, (verdict_iff _ _ _ _).2 v, ?_⟩
    cases d with
    | forward => exact h
    | backward => obtain ⟨_, rfl, h⟩ := h; exact h

theorem checksAll_iff (cs : Case) (p : List Transform) (disp : DisplayTable) (d : Direction) (ts : List Test) (rs : List TestResult) :
    ChecksAll cs p disp d ts rs ↔ Each (fun t r => t.Checks cs p disp d r) ts rs := by
  constructor
  · intro h
    induction h with
    | nil => exact .nil
    | cons h _ ih => exact .cons h ih
  · intro h
    induction h with
    | nil => exact .nil
    | cons h _ ih => exact .cons h ih

/-- The runs of one direction of a suite. -/
def directionRuns (s : Suite) (d : Direction) (tests : List (Text × Text × Test)) : List OneRun :=
  s.tables.flatMap fun tb => tests.map fun t => ⟨s.display, tb, d, t.1, t.2.1, t.2.2⟩

theorem pipeline_of (r : Except TestErr (List Transform)) : (∃ p, r = .ok p) ∨ ∃ e, r = .error e := by
  cases r with
  | ok p => exact .inl ⟨p, rfl⟩
  | error e => exact .inr ⟨e, rfl⟩

theorem each_answers (cs : Case) (sys : Sys) (fs : Files) (display : Option TestDisplay) (d : Direction) (tb : TestTable)
    {rules : List Anchored} {p : List Transform} (hr : TestDisplay.rules fs display = .ok rules)
    (hp : tb.pipeline sys fs d = .ok p) (view : Test → Text × Text × Test) (real : Test → Test)
    (hv : ∀ t, (real t).input = (view t).1 ∧ (real t).expected = (view t).2.1 ∧ (real t).emphasis = (view t).2.2.emphasis ∧
      (real t).xfail = (view t).2.2.xfail) (tests : List Test) (rs : List TestResult) :
    ChecksAll cs p (DisplayTable.compile rules d) d (tests.map real) rs ↔
      Each (OneRun.Answers cs sys fs) (tests.map fun t => ⟨display, tb, d, (view t).1, (view t).2.1, (view t).2.2⟩) rs := by
  rw [checksAll_iff, Each.map_left, Each.map_left]
  have key : ∀ t r, (real t).Checks cs p (DisplayTable.compile rules d) d r ↔
      OneRun.Answers cs sys fs ⟨display, tb, d, (view t).1, (view t).2.1, (view t).2.2⟩ r := by
    intro t r
    rw [checks_iff]
    obtain ⟨h1, h2, h3, h4⟩ := hv t
    rw [h1, h2, h3, h4]
    unfold OneRun.Answers
    constructor
    · rintro ⟨a, h, v⟩
      refine ⟨rules, _, p, a, hr, rfl, hp, ?_, v⟩
      cases d <;> exact h
    · rintro ⟨rules', disp, p', a, e1, rfl, e2, h, v⟩
      have : rules' = rules := by simpa using e1.symm.trans hr
      subst this
      have : p' = p := by simpa using e2.symm.trans hp
      subst this
      refine ⟨a, ?_, v⟩
      cases d <;> exact h
  exact ⟨fun h => h.mono fun _ _ _ => (key _ _).1, fun h => h.mono fun _ _ _ => (key _ _).2⟩

theorem runTables_iff (cs : Case) (sys : Sys) (fs : Files) (display : Option TestDisplay) (d : Direction)
    {rules : List Anchored} (hr : TestDisplay.rules fs display = .ok rules)
    (view : Test → Text × Text × Test) (real : Test → Test)
    (hv : ∀ t, (real t).input = (view t).1 ∧ (real t).expected = (view t).2.1 ∧ (real t).emphasis = (view t).2.2.emphasis ∧
      (real t).xfail = (view t).2.2.xfail) (tests : List Test) : ∀ (tables : List TestTable) (rs : List TestResult),
    RunTables cs sys fs (DisplayTable.compile rules d) d (tests.map real) tables (.ok rs) ↔
      (∀ tb ∈ tables, ∃ p, tb.pipeline sys fs d = .ok p) ∧
      Each (OneRun.Answers cs sys fs) (tables.flatMap fun tb => tests.map fun t =>
        ⟨display, tb, d, (view t).1, (view t).2.1, (view t).2.2⟩) rs := by
  intro tables
  induction tables with
  | nil =>
    intro rs
    constructor
    · intro h; cases h; exact ⟨fun _ h => by simp at h, .nil⟩
    · rintro ⟨-, h⟩; cases h; exact .nil
  | cons tb tables ih =>
    intro rs
    rw [List.flatMap_cons]
    constructor
    · intro h
      cases h with
      | cons hp hc hrest =>
        obtain ⟨h1, h2⟩ := (ih _).1 hrest
        refine ⟨fun t ht => ?_, Each.append ((each_answers cs sys fs display d tb hr hp view real hv tests _).1 hc) h2⟩
        rcases List.mem_cons.1 ht with rfl | ht
        · exact ⟨_, hp⟩
        · exact h1 t ht
    · rintro ⟨h1, h2⟩
      obtain ⟨as, bs, rfl, ha, hb⟩ := Each.split h2
      obtain ⟨p, hp⟩ := h1 tb (by simp)
      exact .cons hp ((each_answers cs sys fs display d tb hr hp view real hv tests _).2 ha)
        ((ih _).2 ⟨fun t ht => h1 t (by simp [ht]), hb⟩)

theorem runDirection_iff (cs : Case) (sys : Sys) (fs : Files) (s : Suite) (d : Direction)
    (view : Test → Text × Text × Test) (real : Test → Test)
    (hv : ∀ t, (real t).input = (view t).1 ∧ (real t).expected = (view t).2.1 ∧ (real t).emphasis = (view t).2.2.emphasis ∧
      (real t).xfail = (view t).2.2.xfail) (rs : List TestResult) :
    RunDirection cs sys fs s d (s.tests.map real) (.ok rs) ↔
      ((∃ rules, TestDisplay.rules fs s.display = .ok rules) ∧ ∀ tb ∈ s.tables, ∃ p, tb.pipeline sys fs d = .ok p) ∧
      Each (OneRun.Answers cs sys fs) (s.tables.flatMap fun tb => s.tests.map fun t =>
        ⟨s.display, tb, d, (view t).1, (view t).2.1, (view t).2.2⟩) rs := by
  constructor
  · intro h
    cases h with
    | tables hd ht =>
      unfold Suite.displayTable at hd
      split at hd
      · cases hd
      · rename_i rules hr
        cases hd
        obtain ⟨h1, h2⟩ := (runTables_iff cs sys fs s.display d hr view real hv s.tests s.tables rs).1 ht
        exact ⟨⟨⟨rules, hr⟩, h1⟩, h2⟩
  · rintro ⟨⟨⟨rules, hr⟩, h1⟩, h2⟩
    exact .tables (disp := DisplayTable.compile rules d) (by unfold Suite.displayTable; rw [hr])
      ((runTables_iff cs sys fs s.display d hr view real hv s.tests s.tables rs).2 ⟨h1, h2⟩)

/-- A suite answers with exactly these results. -/
theorem suite_runs_iff (cs : Case) (sys : Sys) (fs : Files) (fo : Bool) (s : Suite) (rs : List TestResult) :
    s.Runs cs sys fs fo (.ok rs) ↔ s.Usable sys fs fo ∧ Each (OneRun.Answers cs sys fs) (testRuns fo s) rs := by
  have plain := fun d rs => runDirection_iff cs sys fs s d (fun t => (t.input, t.expected, t)) id (fun t => ⟨rfl, rfl, rfl, rfl⟩) rs
  simp only [List.map_id] at plain
  have swapped := runDirection_iff cs sys fs s .backward (fun t => (t.expected, t.input, t)) Test.reverse
    (fun t => ⟨rfl, rfl, rfl, rfl⟩)
  have emp : ∀ (rs : List TestResult), Each (OneRun.Answers cs sys fs) [] rs ↔ rs = [] := fun rs =>
    ⟨fun h => by cases h; rfl, fun h => by subst h; exact .nil⟩
  constructor
  · intro h
    generalize hr : (Except.ok rs : Except TestErr _) = r at h
    cases h with
    | forward m h =>
      subst hr
      obtain ⟨h1, h2⟩ := (plain _ _).1 h
      refine ⟨?_, ?_⟩
      · simpa [Suite.Usable, m, directionsOf] using h1
      · simpa [testRuns, m, directionsOf] using h2
    | backward m f h =>
      subst hr
      obtain ⟨h1, h2⟩ := (plain _ _).1 h
      refine ⟨?_, ?_⟩
      · simpa [Suite.Usable, m, f, directionsOf] using h1
      · simpa [testRuns, m, f, directionsOf] using h2
    | skipped m f => cases hr; exact ⟨by simp [Suite.Usable, m, f, directionsOf], by simpa [testRuns, m, f, directionsOf] using Each.nil⟩
    | bothForwardOnly m f h =>
      subst hr
      obtain ⟨h1, h2⟩ := (plain _ _).1 h
      refine ⟨?_, ?_⟩
      · simpa [Suite.Usable, m, f, directionsOf] using h1
      · simpa [testRuns, m, f, directionsOf] using h2
    | bothError => cases hr
    | both m f h hb =>
      rename_i r
      cases r with
      | error e => cases hr
      | ok rs' =>
        cases hr
        obtain ⟨h1, h2⟩ := (plain _ _).1 h
        obtain ⟨h3, h4⟩ := (swapped _).1 hb
        refine ⟨?_, ?_⟩
        · intro d hd
          cases d
          · exact h1
          · exact h3
        · simpa [testRuns, m, f, directionsOf] using Each.append h2 h4
    | ignored m => cases hr; rcases m with m | m | m <;> exact ⟨by simp [Suite.Usable, m, directionsOf], by simpa [testRuns, m, directionsOf] using Each.nil⟩
  · rintro ⟨hu, he⟩
    cases m : s.mode with
    | forward =>
      simp [Suite.Usable, m, directionsOf] at hu
      simp [testRuns, m, directionsOf] at he
      exact .forward m ((plain _ _).2 ⟨hu, he⟩)
    | backward =>
      cases fo with
      | true =>
        simp [testRuns, m, directionsOf, emp] at he
        subst he
        exact .skipped m rfl
      | false =>
        simp [Suite.Usable, m, directionsOf] at hu
        simp [testRuns, m, directionsOf] at he
        exact .backward m rfl ((plain _ _).2 ⟨hu, he⟩)
    | bothDirections =>
      cases fo with
      | true =>
        simp [Suite.Usable, m, directionsOf] at hu
        simp [testRuns, m, directionsOf] at he
        exact .bothForwardOnly m rfl ((plain _ _).2 ⟨hu, he⟩)
      | false =>
        simp [Suite.Usable, m, directionsOf] at hu
        simp [testRuns, m, directionsOf] at he
        obtain ⟨as, bs, rfl, ha, hb⟩ := Each.split he
        exact .both (r := .ok bs) m rfl ((plain _ _).2 ⟨hu.1, ha⟩) ((swapped _).2 ⟨hu.2, hb⟩)
    | display =>
      simp [testRuns, m, directionsOf, emp] at he
      subst he
      exact .ignored (.inl m)
    | hyphenate =>
      simp [testRuns, m, directionsOf, emp] at he
      subst he
      exact .ignored (.inr (.inl m))
    | hyphenateBraille =>
      simp [testRuns, m, directionsOf, emp] at he
      subst he
      exact .ignored (.inr (.inr m))

/-- C63: the results of a test file.  A file yields results iff everything its suites need can be read and compiled, and then
there is one result for each suite, direction, table and test, in this order, and it is the verdict on what the text of the test
was translated to. -/
theorem C63_results (cs : Case) (sys : Sys) (fs : Files) (fo : Bool) (ss : List Suite) (rs : List TestResult) :
    RunSuites cs sys fs fo ss (.ok rs) ↔
      (∀ s ∈ ss, s.Usable sys fs fo) ∧ Each (OneRun.Answers cs sys fs) (ss.flatMap (testRuns fo)) rs := by
  induction ss generalizing rs with
  | nil =>
    constructor
    · intro h; cases h; exact ⟨fun _ h => by simp at h, .nil⟩
    · rintro ⟨-, h⟩; cases h; exact .nil
  | cons s ss ih =>
    rw [List.flatMap_cons]
    constructor
    · intro h
      cases h with
      | cons hs hrest =>
        obtain ⟨h1, h2⟩ := (suite_runs_iff _ _ _ _ _ _).1 hs
        obtain ⟨h3, h4⟩ := (ih _).1 hrest
        refine ⟨fun t ht => ?_, h2.append h4⟩
        rcases List.mem_cons.1 ht with rfl | ht
        · exact h1
        · exact h3 t ht
    · rintro ⟨h1, h2⟩
      obtain ⟨as, bs, rfl, ha, hb⟩ := Each.split h2
      exact .cons ((suite_runs_iff _ _ _ _ _ _).2 ⟨h1 s (by simp), ha⟩) ((ih _).2 ⟨fun t ht => h1 t (by simp [ht]), hb⟩)

/-- C63: no run is left out and none is added. -/
theorem C63_number_of_results (cs : Case) (sys : Sys) (fs : Files) (fo : Bool) (ss : List Suite) (rs : List TestResult)
    (h : RunSuites cs sys fs fo ss (.ok rs)) : rs.length =
      (ss.map fun s => ((directionsOf s.mode).filter fun d => !(fo && d == .backward)).length * (s.tables.length * s.tests.length)).sum := by
  have e := ((C63_results cs sys fs fo ss rs).1 h).2
  have len : ∀ {as : List OneRun} {bs : List TestResult}, Each (OneRun.Answers cs sys fs) as bs → bs.length = as.length := by
    intro as bs h
    induction h with
    | nil => rfl
    | cons _ _ ih => simp [ih]
  rw [len e, List.length_flatMap]
  congr 1
  refine List.map_congr_left fun s _ => ?_
  unfold testRuns
  rw [List.length_flatMap]
  generalize (directionsOf s.mode).filter (fun d => !(fo && d == .backward)) = ds
  have k : ∀ d, (s.tables.flatMap fun tb => s.tests.map fun t =>
      if s.mode = .bothDirections ∧ d = .backward then (⟨s.display, tb, d, t.expected, t.input, t⟩ : OneRun)
      else ⟨s.display, tb, d, t.input, t.expected, t⟩).length = s.tables.length * s.tests.length := by
    intro d
    rw [List.length_flatMap]
    simp [List.map_const']
  simp [k, List.map_const']

theorem runTables_error (cs : Case) (sys : Sys) (fs : Files) (disp : DisplayTable) (d : Direction) (tests : List Test) (e : TestErr) :
    ∀ (tables : List TestTable), RunTables cs sys fs disp d tests tables (.error e) → ∃ tb ∈ tables, tb.pipeline sys fs d = .error e := by
  intro tables
  induction tables with
  | nil => intro h; cases h
  | cons tb tables ih =>
    intro h
    cases h with
    | error h => exact ⟨tb, by simp, h⟩
    | later _ _ h =>
      obtain ⟨tb', m, h'⟩ := ih h
      exact ⟨tb', by simp [m], h'⟩

theorem runDirection_error (cs : Case) (sys : Sys) (fs : Files) (s : Suite) (d : Direction) (tests : List Test) (e : TestErr)
    (h : RunDirection cs sys fs s d tests (.error e)) :
    TestDisplay.rules fs s.display = .error e ∨ ∃ tb ∈ s.tables, tb.pipeline sys fs d = .error e := by
  cases h with
  | display h =>
    unfold Suite.displayTable at h
    split at h
    · cases h; exact .inl ‹_›
    · cases h
  | tables _ h => exact .inr (runTables_error _ _ _ _ _ _ _ _ h)

/-- C63: an error is that of a display table or of a table of the file, in a direction it is needed for. -/
theorem C63_errors (cs : Case) (sys : Sys) (fs : Files) (fo : Bool) (ss : List Suite) (e : TestErr)
    (h : RunSuites cs sys fs fo ss (.error e)) : ∃ s ∈ ss, ∃ d ∈ directionsOf s.mode,
      TestDisplay.rules fs s.display = .error e ∨ ∃ tb ∈ s.tables, tb.pipeline sys fs d = .error e := by
  induction ss with
  | nil => cases h
  | cons s ss ih =>
    cases h with
    | error h =>
      refine ⟨s, by simp, ?_⟩
      generalize hr : (Except.error e : Except TestErr (List TestResult)) = r at h
      cases h with
      | forward m h => subst hr; exact ⟨.forward, by simp [m, directionsOf], runDirection_error _ _ _ _ _ _ _ h⟩
      | backward m _ h => subst hr; exact ⟨.backward, by simp [m, directionsOf], runDirection_error _ _ _ _ _ _ _ h⟩
      | skipped => cases hr
      | bothForwardOnly m _ h => subst hr; exact ⟨.forward, by simp [m, directionsOf], runDirection_error _ _ _ _ _ _ _ h⟩
      | bothError m _ h => cases hr; exact ⟨.forward, by simp [m, directionsOf], runDirection_error _ _ _ _ _ _ _ h⟩
      | both m hf hr' h =>
        rename_i r
        rcases r with e' | _
        · cases hr; exact ⟨.backward, by simp [m, directionsOf], runDirection_error _ _ _ _ _ _ _ h⟩
        · cases hr
      | ignored => cases hr
    | later _ h =>
      obtain ⟨s', m, h'⟩ := ih h
      exact ⟨s', by simp [m], h'⟩

/-- C63: the table files of a test are those of a translator made from the same files. -/
theorem C63_files_like_translator (sys : Sys) (fs : Files) (paths : List Text) (d : Direction) (p : List Transform) :
    ((TestTable.list paths).pipeline sys fs d = .ok p ↔ translatorNew sys fs paths d = .ok p) ∧
    (∀ path, (TestTable.simple path).pipeline sys fs d = .ok p ↔ translatorNew sys fs [path] d = .ok p) := by
  have k : ∀ paths, (TestTable.list paths).pipeline sys fs d = .ok p ↔ translatorNew sys fs paths d = .ok p := by
    intro paths
    unfold TestTable.pipeline translatorNew fileRules
    dsimp only
    cases allTables fs paths with
    | error es => simp
    | ok rules => dsimp only; cases Pipeline.compile sys (anchor rules) d <;> simp
  exact ⟨k paths, fun path => k [path]⟩

theorem inlined_self {fs : Files} {I : Text → List (Rule × Loc) → Prop} (rules : List (Rule × Loc))
    (h : ∀ r ∈ rules, ∀ f, r.1 ≠ .incl f) : Inlined fs I rules rules := by
  induction rules with
  | nil => exact .done
  | cons r rules ih => exact .rule r.1 r.2 rules rules (h r (by simp)) (ih fun r hr => h r (by simp [hr]))

/-- C63: a table written into the test file is the translator made from the same text, unless it includes other tables. -/
theorem C63_inline_like_translator (sys : Sys) (fs : Files) (text : Text) (d : Direction) (p : List Transform)
    (h : translatorFromSource sys text d = .ok p) : (TestTable.inline text).pipeline sys fs d = .ok p := by
  unfold translatorFromSource fromTableSource at h
  unfold TestTable.pipeline inlineRules
  dsimp only
  cases hp : parseTable text none with
  | error es => rw [hp] at h; cases h
  | ok rules =>
    rw [hp] at h
    dsimp only at h ⊢
    split at h
    · cases h
    · rename_i hi
      have : expandIncludes fs (tableExpanded fs) rules = .ok rules := by
        rw [expandIncludes_ok_iff]
        refine inlined_self rules fun r hr f e => hi ?_
        rw [List.any_eq_true]
        obtain ⟨i, hlt, rfl⟩ := List.getElem_of_mem hr
        refine ⟨⟨rules[i].1, i⟩, ?_, by rw [e]⟩
        unfold anchor
        rw [List.mem_map]
        exact ⟨(rules[i], i), by rw [List.mem_zipIdx_iff_getElem?]; simp [hlt], rfl⟩
      rw [this]
      dsimp only
      cases hc : Pipeline.compile sys (anchor rules) d with
      | error e => rw [hc] at h; cases h
      | ok p' => rw [hc] at h; cases h; rfl

/-- A test reduced to what is looked at when it is run. -/
def Test.looked (t : Test) : Test := { bareTest t.input t.expected with xfail := t.xfail, emphasis := t.emphasis }

theorem checks_looked (cs : Case) (p : List Transform) (disp : DisplayTable) (d : Direction) (t : Test) (r : TestResult) :
    t.looked.Checks cs p disp d r ↔ t.Checks cs p disp d r := Iff.rfl

theorem checksAll_looked (cs : Case) (p : List Transform) (disp : DisplayTable) (d : Direction) (ts : List Test) (rs : List TestResult) :
    ChecksAll cs p disp d (ts.map Test.looked) rs ↔ ChecksAll cs p disp d ts rs := by
  rw [checksAll_iff, checksAll_iff, Each.map_left]
  exact Iff.rfl

/-- **The options of a test are mostly ignored**: the mode, the cursor position, the expected positions, the expected typeform
and the lengths of a test have no effect on the results; a test that expects them to hold succeeds whether they do or not. -/
theorem C63_ignored_options_wrong (cs : Case) (sys : Sys) (fs : Files) (fo : Bool) (ss : List Suite) (rs : List TestResult) :
    RunSuites cs sys fs fo (ss.map fun s => { s with tests := s.tests.map Test.looked }) (.ok rs) ↔
      RunSuites cs sys fs fo ss (.ok rs) := by
  rw [C63_results, C63_results]
  have hu : (∀ s ∈ ss.map (fun s => { s with tests := s.tests.map Test.looked }), s.Usable sys fs fo) ↔
      ∀ s ∈ ss, s.Usable sys fs fo := by
    simp only [List.mem_map, forall_exists_index, and_imp, forall_apply_eq_imp_iff₂]
    exact Iff.rfl
  rw [hu, and_congr_right_iff]
  intro _
  have hr : ∀ s : Suite, testRuns fo { s with tests := s.tests.map Test.looked } =
      (testRuns fo s).map fun r => { r with test := r.test.looked } := by
    intro s
    unfold testRuns
    rw [List.map_flatMap]
    dsimp only
    congr 1
    funext d
    rw [List.map_flatMap]
    congr 1
    funext tb
    rw [List.map_map, List.map_map]
    refine List.map_congr_left fun t _ => ?_
    dsimp only [Function.comp]
    split <;> rfl
  rw [List.flatMap_map]
  have : (ss.flatMap fun s => testRuns fo { s with tests := s.tests.map Test.looked }) =
      (ss.flatMap (testRuns fo)).map fun r => { r with test := r.test.looked } := by
    rw [List.map_flatMap]
    congr 1
    funext s
    exact hr s
  rw [this, Each.map_left]
  exact Iff.rfl

/-- **Tests of hyphenation and of display tables are never run**: a suite in one of these modes yields no result, whatever its
tables and tests. -/
theorem C63_unrun_modes_wrong (cs : Case) (sys : Sys) (fs : Files) (fo : Bool) (s : Suite) (r : Except TestErr (List TestResult))
    (h : s.mode = .display ∨ s.mode = .hyphenate ∨ s.mode = .hyphenateBraille) : s.Runs cs sys fs fo r ↔ r = .ok [] := by
  constructor
  · intro hr
    cases hr with
    | skipped => rfl
    | ignored => rfl
    | forward m => rcases h with h | h | h <;> rw [h] at m <;> cases m
    | backward m => rcases h with h | h | h <;> rw [h] at m <;> cases m
    | bothForwardOnly m => rcases h with h | h | h <;> rw [h] at m <;> cases m
    | bothError m => rcases h with h | h | h <;> rw [h] at m <;> cases m
    | both m => rcases h with h | h | h <;> rw [h] at m <;> cases m
  · rintro rfl; exact .ignored h

/-- **A table query ends the whole file**: a file with a suite that asks for a table by a query yields no result at all. -/
theorem C63_query_ends_file_wrong (cs : Case) (sys : Sys) (fs : Files) (ss : List Suite) (s : Suite) (q : List (Text × Text))
    (hs : s ∈ ss) (hq : .query q ∈ s.tables) (hm : s.mode = .forward ∨ s.mode = .bothDirections) (fo : Bool) (rs : List TestResult) :
    ¬ RunSuites cs sys fs fo ss (.ok rs) := by
  rw [C63_results]
  rintro ⟨hu, -⟩
  have : Direction.forward ∈ (directionsOf s.mode).filter (fun d => !(fo && d == .backward)) := by
    rcases hm with e | e <;> simp [e, directionsOf]
  obtain ⟨p, hp⟩ := (hu s hs _ this).2 _ hq
  cases hp

set_option maxRecDepth 10000 in
/-- Non-vacuity: a suite of two tests with a table written into the file, run in both directions, with the four kinds of
verdicts. -/
example : ∃ rs, RunSuites ascii demoSys ⟨fun _ => none, fun _ => none, fun _ => none⟩ false
    [⟨none, [.inline "letter a 1\nletter b 12\n".toList], .bothDirections,
      [bareTest "ab".toList "⠁⠃".toList, { bareTest "ba".toList "⠁".toList with xfail := .direction true false }]⟩] (.ok rs) ∧
    rs = [.success, .expectedFailure "ba".toList "⠁".toList "⠃⠁".toList .forward,
      .success, .failure "⠁".toList "ba".toList "a".toList .backward] := by
  refine ⟨_, ?_, rfl⟩
  rw [C63_results]
  have f1 : SourceTranslates demoSys ascii "letter a 1\nletter b 12\n".toList .forward [] "ab".toList "⠁⠃".toList :=
    runSource_sound (fuel := 40) (by decide +kernel)
  have f2 : SourceTranslates demoSys ascii "letter a 1\nletter b 12\n".toList .forward [] "ba".toList "⠃⠁".toList :=
    runSource_sound (fuel := 40) (by decide +kernel)
  have b1 : SourceTranslates demoSys ascii "letter a 1\nletter b 12\n".toList .backward [] "⠁⠃".toList "ab".toList :=
    runSource_sound (fuel := 40) (by decide +kernel)
  have b2 : SourceTranslates demoSys ascii "letter a 1\nletter b 12\n".toList .backward [] "⠁".toList "a".toList :=
    runSource_sound (fuel := 40) (by decide +kernel)
  generalize "letter a 1\nletter b 12\n".toList = table at *
  obtain ⟨p1, e1, t1⟩ := f1
  obtain ⟨p2, e2, t2⟩ := f2
  obtain ⟨p3, e3, t3⟩ := b1
  obtain ⟨p4, e4, t4⟩ := b2
  have pf : ∀ (fs : Files) p d, translatorFromSource demoSys table d = .ok p → (TestTable.inline table).pipeline demoSys fs d = .ok p :=
    fun fs p d => C63_inline_like_translator demoSys fs table d p
  refine ⟨?_, ?_⟩
  · intro s hs
    rw [List.mem_singleton.1 hs]
    intro d _
    refine ⟨⟨[], rfl⟩, fun tb htb => ?_⟩
    rw [List.mem_singleton.1 htb]
    cases d
    · exact ⟨p1, pf _ _ _ e1⟩
    · exact ⟨p3, pf _ _ _ e3⟩
  · refine .cons ⟨[], _, p1, "⠁⠃".toList, rfl, rfl, pf _ _ _ e1, ⟨_, t1, rfl⟩, .success rfl (by simp [MarkedFailing, bareTest])⟩ ?_
    refine .cons ⟨[], _, p2, "⠃⠁".toList, rfl, rfl, pf _ _ _ e2, ⟨_, t2, rfl⟩, .expectedFailure (show "⠃⠁".toList ≠ "⠁".toList by decide) (by simp [MarkedFailing])⟩ ?_
    refine .cons ⟨[], _, p3, "ab".toList, rfl, rfl, pf _ _ _ e3, ⟨_, rfl, t3⟩, .success rfl (by simp [MarkedFailing, bareTest])⟩ ?_
    refine .cons ⟨[], _, p4, "a".toList, rfl, rfl, pf _ _ _ e4, ⟨_, rfl, t4⟩, .failure (show "a".toList ≠ "ba".toList by decide) (by simp [MarkedFailing])⟩ ?_
    exact .nil

/-! ## Reports -/

/-- A row counts the results of a file: all of them, and each kind of verdict. -/
structure RowOf (file : Text) (rs : List TestResult) (row : Summary) : Prop where
  file : row.file = file
  tests : row.tests = rs.length
  successes : row.successes = rs.count .success
  failures : row.failures = rs.countP fun r => match r with | .failure .. => true | _ => false
  expectedFailures : row.expectedFailures = rs.countP fun r => match r with | .expectedFailure .. => true | _ => false
  unexpectedSuccesses : row.unexpectedSuccesses = rs.countP fun r => match r with | .unexpectedSuccess .. => true | _ => false

/-- The four kinds of verdict add up to the number of tests. -/
def Summary.AddsUp (s : Summary) : Prop :=
  s.tests = s.successes + s.failures + s.expectedFailures + s.unexpectedSuccesses

theorem summarize_row (file : Text) (rs : List TestResult) : RowOf file rs (summarize file rs) := by
  refine ⟨rfl, rfl, ?_, ?_, ?_, ?_⟩
  · rw [List.count, List.countP_eq_length_filter]
    show (rs.filter _).length = _
    congr 2
    funext r
    cases r <;> simp [TestResult.isSuccess]
  all_goals
    rw [List.countP_eq_length_filter]
    show (rs.filter _).length = _
    congr 2

theorem RowOf.addsUp {file : Text} {rs : List TestResult} {row : Summary} (h : RowOf file rs row) : row.AddsUp := by
  unfold Summary.AddsUp
  rw [h.tests, h.successes, h.failures, h.expectedFailures, h.unexpectedSuccesses]
  clear h
  induction rs with
  | nil => rfl
  | cons r rs ih =>
    rw [List.length_cons, ih]
    cases r <;> simp <;> omega

/-- The files that could be run, with their results. -/
def fileResults (outcomes : List (Text × Option (List TestResult))) : List (Text × List TestResult) :=
  outcomes.filterMap fun o => o.2.map fun rs => (o.1, rs)

theorem checkSummary_spec (outcomes : List (Text × Option (List TestResult))) : ∀ (acc : Summary),
    (checkSummary outcomes acc).1 = (fileResults outcomes).map (fun f => summarize f.1 f.2) ∧
    (checkSummary outcomes acc).2 = ⟨"Total".toList,
      acc.tests + ((checkSummary outcomes acc).1.map Summary.tests).sum,
      acc.successes + ((checkSummary outcomes acc).1.map Summary.successes).sum,
      acc.failures + ((checkSummary outcomes acc).1.map Summary.failures).sum,
      acc.expectedFailures + ((checkSummary outcomes acc).1.map Summary.expectedFailures).sum,
      acc.unexpectedSuccesses + ((checkSummary outcomes acc).1.map Summary.unexpectedSuccesses).sum⟩ := by
  induction outcomes with
  | nil => intro acc; exact ⟨rfl, rfl⟩
  | cons o outcomes ih =>
    intro acc
    obtain ⟨file, _ | rs⟩ := o
    · exact ih acc
    · obtain ⟨h1, h2⟩ := ih (acc.update (summarize file rs))
      rw [checkSummary]
      dsimp only
      refine ⟨by rw [h1]; rfl, ?_⟩
      rw [h2]
      simp only [List.map_cons, List.sum_cons, Summary.update, Nat.add_assoc]

/-- C66: the summary of `check`.  Its last row is the total.  The other rows are, up to their order, one for each file that
could be run, and they count its results; they are ordered by the number of tests.  Every column of the total is the sum of the
column, and in every row the four kinds of verdicts add up to the number of tests. -/
theorem C66_summary (outcomes : List (Text × Option (List TestResult))) :
    ∃ rows total, checkRows outcomes = rows ++ [total] ∧
      (∃ files : List Summary, files.Perm rows ∧ Each (fun f row => RowOf f.1 f.2 row) (fileResults outcomes) files) ∧
      rows.Pairwise (fun a b => a.tests ≤ b.tests) ∧
      (total.tests = (rows.map Summary.tests).sum ∧ total.successes = (rows.map Summary.successes).sum ∧
        total.failures = (rows.map Summary.failures).sum ∧ total.expectedFailures = (rows.map Summary.expectedFailures).sum ∧
        total.unexpectedSuccesses = (rows.map Summary.unexpectedSuccesses).sum) ∧
      ∀ row ∈ rows ++ [total], row.AddsUp := by
  obtain ⟨h1, h2⟩ := checkSummary_spec outcomes ⟨[], 0, 0, 0, 0, 0⟩
  have hperm := stableSort_perm (fun a b : Summary => decide (a.tests < b.tests)) (checkSummary outcomes ⟨[], 0, 0, 0, 0, 0⟩).1
  have hsum : ∀ f : Summary → Nat, ((stableSort (fun a b : Summary => decide (a.tests < b.tests))
      (checkSummary outcomes ⟨[], 0, 0, 0, 0, 0⟩).1).map f).sum = ((checkSummary outcomes ⟨[], 0, 0, 0, 0, 0⟩).1.map f).sum :=
    fun f => (hperm.map f).sum_nat
  have hrows : ∀ row ∈ stableSort (fun a b : Summary => decide (a.tests < b.tests)) (checkSummary outcomes ⟨[], 0, 0, 0, 0, 0⟩).1,
      row.AddsUp := by
    intro row hr
    rw [mem_stableSort, h1, List.mem_map] at hr
    obtain ⟨f, -, rfl⟩ := hr
    exact (summarize_row _ _).addsUp
  have ht : (checkSummary outcomes ⟨[], 0, 0, 0, 0, 0⟩).2.AddsUp := by
    rw [h2]
    unfold Summary.AddsUp
    have : ∀ rows : List Summary, (∀ r ∈ rows, r.AddsUp) → (rows.map Summary.tests).sum = (rows.map Summary.successes).sum +
        (rows.map Summary.failures).sum + (rows.map Summary.expectedFailures).sum + (rows.map Summary.unexpectedSuccesses).sum := by
      intro rows
      induction rows with
      | nil => intro _; rfl
      | cons r rows ih =>
        intro h
        have h' := h r (by simp)
        unfold Summary.AddsUp at h'
        have := ih fun r hr => h r (by simp [hr])
        simp only [List.map_cons, List.sum_cons]
        omega
    have := this _ fun r hr => hrows r ((mem_stableSort _ _ _).2 hr)
    dsimp only
    omega
  refine ⟨_, _, rfl, ⟨_, hperm.symm, ?_⟩, ?_, ?_, ?_⟩
  · rw [h1]
    generalize fileResults outcomes = fr
    induction fr with
    | nil => exact .nil
    | cons f fr ih => exact .cons (summarize_row _ _) ih
  · refine stableSort_sorted (key := Summary.tests) ?_ _
    intro a b
    simp
    try omega
  · refine ⟨?_, ?_, ?_, ?_, ?_⟩ <;> rw [hsum, h2] <;> simp
  · intro row hr
    rcases List.mem_append.1 hr with hr | hr
    · exact hrows row hr
    · rw [List.mem_singleton.1 hr]; exact ht

/-- C66: without `--summary` exactly the results that are no successes are printed, in the order of the files and tests. -/
theorem C66_printed (outcomes : List (Text × Option (List TestResult))) :
    checkPrinted outcomes = ((fileResults outcomes).flatMap (·.2)).filter (fun r => decide (r ≠ .success)) := by
  have h : ∀ rs : List TestResult, rs.filter (!·.isSuccess) = rs.filter (fun r => decide (r ≠ .success)) := by
    intro rs
    congr 1
    funext r
    cases r <;> simp [TestResult.isSuccess]
  induction outcomes with
  | nil => rfl
  | cons o outcomes ih =>
    obtain ⟨file, _ | rs⟩ := o
    · exact ih
    · show rs.filter _ ++ checkPrinted outcomes = _
      rw [ih, h]
      simp [fileResults]

/-- C66: the rows of a trace are numbered from 1 on, in the order of the translations, and they are those of the main stage
and those that name a rule. -/
theorem C66_trace_rows (tss : List (List Resolved)) :
    (shownTrace tss).map (·.1) = (List.range (shownTrace tss).length).map (· + 1) ∧
    ((shownTrace tss).map (·.2)).Sublist tss.flatten ∧
    (shownTrace tss).map (·.2) = tss.flatten.filter (fun t => decide (t.stage = .main) || t.origin.isSome) := by
  have e : (shownTrace tss).map (·.2) = tss.flatten.filter (fun t => t.stage == .main || t.origin.isSome) := by
    unfold shownTrace
    rw [List.map_map]
    have : ((fun r : Nat × Resolved => r.2) ∘ fun r : Resolved × Nat => (r.2 + 1, r.1)) = Prod.fst := rfl
    rw [this, List.zipIdx_map_fst]
  refine ⟨?_, e ▸ List.filter_sublist, ?_⟩
  · unfold shownTrace
    rw [List.map_map, List.length_map, List.length_zipIdx]
    have : ((fun r : Nat × Resolved => r.1) ∘ fun r : Resolved × Nat => (r.2 + 1, r.1)) = (· + 1) ∘ Prod.snd := rfl
    rw [this, ← List.map_map, List.zipIdx_map_snd]
    congr 1
    exact (List.range_eq_range').symm
  · rw [e]
    rfl

/-! ## Queries -/

theorem piece_iff (piece k v : Text) : (∃ more, splitOn '=' piece = k :: v :: more) ↔ '=' ∉ k ∧ '=' ∉ v ∧
    (piece = k ++ '=' :: v ∨ ∃ rest, piece = k ++ '=' :: v ++ '=' :: rest) := by
  constructor
  · rintro ⟨more, h⟩
    rcases splitOn_cases '=' piece with hp | ⟨p, rest, rfl, hp⟩
    · rw [splitOn_none _ _ hp] at h; cases h
    · rw [splitOn_append _ _ _ hp] at h
      injection h with e h
      subst e
      refine ⟨hp, ?_⟩
      rcases splitOn_cases '=' rest with hq | ⟨q, rest', rfl, hq⟩
      · rw [splitOn_none _ _ hq] at h
        injection h with e _
        subst e
        exact ⟨hq, .inl rfl⟩
      · rw [splitOn_append _ _ _ hq] at h
        injection h with e _
        subst e
        exact ⟨hq, .inr ⟨rest', by simp⟩⟩
  · rintro ⟨hk, hv, rfl | ⟨rest, rfl⟩⟩
    · rw [splitOn_append _ _ _ hk, splitOn_none _ _ hv]; exact ⟨_, rfl⟩
    · rw [List.append_assoc, List.cons_append, splitOn_append _ _ _ hk, splitOn_append _ _ _ hv]; exact ⟨_, rfl⟩

theorem piece_missing (piece : Text) : (∀ k v more, splitOn '=' piece ≠ k :: v :: more) ↔ '=' ∉ piece := by
  constructor
  · intro h hm
    rcases splitOn_cases '=' piece with hp | ⟨p, rest, rfl, hp⟩
    · exact hp hm
    · rw [splitOn_append _ _ _ hp] at h
      rcases e : splitOn '=' rest with _ | ⟨v, more⟩
      · exact splitOn_ne_nil _ _ e
      · exact h p v more (by rw [e])
  · intro h k v more e
    rw [splitOn_none _ _ h] at e
    cases e

/-- C67: the query of the command line means its pairs. -/
theorem C67_query_grammar (arg : Text) (q : List (Text × Text)) : parseQuery arg = .ok q ↔ QuerySrc arg q := by
  have key : ∀ pieces : List Text, pieces.foldr (fun piece acc => match splitOn '=' piece with
      | k :: v :: _ => match acc with
        | .ok q => .ok ((k, v) :: q)
        | .error e => .error e
      | _ => .error .panic) (.ok [] : Except Fault (List (Text × Text))) = .ok q ↔
      Each (fun piece kv => '=' ∉ kv.1 ∧ '=' ∉ kv.2 ∧
        (piece = kv.1 ++ '=' :: kv.2 ∨ ∃ rest, piece = kv.1 ++ '=' :: kv.2 ++ '=' :: rest)) pieces q := by
    intro pieces
    induction pieces generalizing q with
    | nil =>
      constructor
      · intro h; cases h; exact .nil
      · intro h; cases h; rfl
    | cons piece pieces ih =>
      rw [List.foldr_cons]
      generalize hf : pieces.foldr _ _ = acc at *
      constructor
      · intro h
        split at h
        · rename_i k v more he
          cases acc with
          | error e => cases h
          | ok q' =>
            cases h
            exact .cons ((piece_iff _ _ _).1 ⟨more, he⟩) ((ih q').1 rfl)
        · cases h
      · intro h
        cases h with
        | cons hp hrest =>
          obtain ⟨more, he⟩ := (piece_iff _ _ _).2 hp
          rw [he, (ih _).2 hrest]
  constructor
  · intro h
    exact .mk ((commaList_iff _ _).2 rfl) ((key _).1 h)
  · rintro ⟨hc, he⟩
    rw [commaList_iff] at hc
    subst hc
    exact (key _).2 he

/-- C67: the command panics exactly if a piece has no `=`. -/
theorem C67_query_panics_wrong (arg : Text) : parseQuery arg = .error .panic ↔
    ∃ pieces piece, CommaList arg pieces ∧ piece ∈ pieces ∧ '=' ∉ piece := by
  have key : ∀ pieces : List Text, pieces.foldr (fun piece acc => match splitOn '=' piece with
      | k :: v :: _ => match acc with
        | .ok q => .ok ((k, v) :: q)
        | .error e => .error e
      | _ => .error .panic) (.ok [] : Except Fault (List (Text × Text))) = .error .panic ↔
      ∃ piece ∈ pieces, '=' ∉ piece := by
    intro pieces
    induction pieces with
    | nil => simp
    | cons piece pieces ih =>
      rw [List.foldr_cons]
      generalize pieces.foldr _ _ = acc at *
      by_cases hp : '=' ∈ piece
      · have : ∃ k v more, splitOn '=' piece = k :: v :: more := by
          apply Classical.byContradiction
          intro hn
          exact (piece_missing piece).1 (fun k v more e => hn ⟨k, v, more, e⟩) hp
        obtain ⟨k, v, more, e⟩ := this
        rw [e]
        dsimp only
        have hr : (∃ p ∈ piece :: pieces, '=' ∉ p) ↔ ∃ p ∈ pieces, '=' ∉ p := by
          constructor
          · rintro ⟨p, hm, h⟩
            rcases List.mem_cons.1 hm with rfl | hm
            · exact absurd hp h
            · exact ⟨p, hm, h⟩
          · rintro ⟨p, hm, h⟩; exact ⟨p, by simp [hm], h⟩
        rw [hr, ← ih]
        cases acc <;> simp
      · refine ⟨fun _ => ⟨piece, by simp, hp⟩, fun _ => ?_⟩
        split
        · rename_i k v more he
          exact absurd he ((piece_missing piece).2 hp k v more)
        · rfl
  refine (key (splitOn ',' arg)).trans ?_
  constructor
  · rintro ⟨p, hm, h⟩; exact ⟨_, p, (commaList_iff _ _).2 rfl, hm, h⟩
  · rintro ⟨ps, p, hc, hm, h⟩
    rw [commaList_iff] at hc
    subst hc
    exact ⟨p, hm, h⟩

/-- C67: a query on the command line finds exactly the tables that declare every one of its pairs. -/
theorem C67_query_answer (ws : Char → Bool) (files : List (Text × List Text)) (arg : Text) (q : List (Text × Text))
    (h : QuerySrc arg q) : ∃ result, queryCommand (buildIndex ws files) arg = .ok result ∧
      ∀ p, p ∈ result ↔ ∀ kv ∈ q, ∃ lines, (p, lines) ∈ files ∧ ∃ line ∈ lines, Declares ws line kv.1 kv.2 := by
  have hq : q ≠ [] := by
    rintro rfl
    obtain ⟨hc, he⟩ := h
    cases he
    cases hc
  obtain ⟨result, e, hr⟩ := C38_search_partial ws files q hq
  refine ⟨result, ?_, hr⟩
  unfold queryCommand
  rw [(C67_query_grammar arg q).2 h]
  exact e

/-- Non-vacuity of C66: two files with results, one without. -/
example : checkRows [("a".toList, some [.success, .unexpectedSuccess [] .forward]), ("b".toList, none),
    ("c".toList, some [.failure [] [] [] .forward])] =
    [⟨"c".toList, 1, 0, 1, 0, 0⟩, ⟨"a".toList, 2, 1, 0, 0, 1⟩, ⟨"Total".toList, 3, 1, 1, 0, 1⟩] := by decide +kernel

example : QuerySrc "language=de,grade=2=x".toList [("language".toList, "de".toList), ("grade".toList, "2".toList)] :=
  (C67_query_grammar _ _).1 (by rfl)

end Louis
