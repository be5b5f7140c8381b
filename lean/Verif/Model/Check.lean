import Verif.Model.Source

/-!
# Model of the test runner: `src/yaml.rs`, `src/test.rs` and the `check`, `query` and `trace` commands of `src/main.rs`

The YAML library (`libyaml`) is not modelled: the model starts from its events.  In the code a suite of tests is run as soon
as it has been read; here the suites are read first and then run.  The results of a file are the same: they are returned only
if the whole file is read and all of its suites could be run.
-/

namespace Louis

open Regexp (Fault)

/-- `libyaml::Event`, as far as `yaml.rs` looks at it; `bad` is an error of the YAML library.  `block` says that the style of
a scalar is literal (`|`) or folded (`>`); `utf8` that the encoding of the stream is known to be UTF-8. -/
inductive Ev where
  | streamStart (utf8 : Bool)
  | streamEnd
  | docStart
  | docEnd
  | mapStart
  | mapEnd
  | seqStart
  | seqEnd
  | scalar (value : Text) (block : Bool)
  | alias
  | bad
  deriving Repr, DecidableEq

/-- test.rs:32-40 `enum TestMode`. -/
inductive TestMode where
  | forward | backward | bothDirections | display | hyphenate | hyphenateBraille
  deriving Repr, DecidableEq

/-- test.rs:214-224 `enum Table`. -/
inductive TestTable where
  | simple (path : Text)
  | query (q : List (Text × Text))
  | list (paths : List Text)
  | inline (text : Text)
  deriving Repr, DecidableEq

/-- test.rs:226-235 `enum Display`. -/
inductive TestDisplay where
  | simple (path : Text)
  | list (paths : List Text)
  | inline (text : Text)
  deriving Repr, DecidableEq

/-- test.rs:247-252 `enum ExpectedFailure`; the set of directions as two flags. -/
inductive Xfail where
  | simple (b : Bool)
  | reason (text : Text)
  | direction (forward backward : Bool)
  deriving Repr, DecidableEq

/-- test.rs:255-261 `ExpectedFailure::is_failure`. -/
def Xfail.isFailure (d : Direction) : Xfail → Bool
  | .simple b => b
  | .reason _ => true
  | .direction f b => match d with
    | .forward => f
    | .backward => b

/-- test.rs:239-243 `enum CursorPosition`. -/
inductive CursorPos where
  | single (p : Nat)
  | tuple (p q : Nat)
  deriving Repr, DecidableEq

/-- translator/options.rs:16-24 `enum TranslationMode`. -/
inductive TransMode where
  | noContractions | compbrlAtCursor | dotsIO | compbrlLeftCursor | ucBrl | noUndefined | partialTrans
  deriving Repr, DecidableEq

/-- test.rs:264-281 `struct Test`; `modes` lists the members of the set. -/
structure Test where
  input : Text
  expected : Text
  xfail : Xfail
  emphasis : List Span
  expectedEmphasis : List Span
  inputPos : List Nat
  outputPos : List Nat
  cursorPos : Option CursorPos
  modes : List TransMode
  maxOutputLength : Option Nat
  realInputLength : Option Nat
  deriving Repr, DecidableEq

/-- test.rs:385-391 `reverse`. -/
def Test.reverse (t : Test) : Test := { t with input := t.expected, expected := t.input }

/-- test.rs:78-89 `struct TestMatrix`. -/
structure Suite where
  display : Option TestDisplay
  tables : List TestTable
  mode : TestMode
  tests : List Test
  deriving Repr, DecidableEq

/-! ## Reading the events -/

/-- A reader of events: the value read and the events that are left; `none` is an error. -/
abbrev YP (α : Type) := List Ev → Option (α × List Ev)

/-- yaml.rs:73-78 `scalar`. -/
def yScalar : YP Text
  | .scalar v _ :: evs => some (v, evs)
  | _ => none

/-- yaml.rs:80-106 `mapping_start`, `mapping_end`, `sequence_start`, `sequence_end` and 427-461: exactly this event. -/
def yEvent (e : Ev) : YP Unit
  | x :: evs => if x = e then some ((), evs) else none
  | [] => none

/-- The loops of yaml.rs:147-150, 284-287 and 325-328 over the scalars up to the next other event. -/
def yScalars : List Ev → List Text × List Ev
  | .scalar v _ :: evs => (v :: (yScalars evs).1, (yScalars evs).2)
  | evs => ([], evs)

/-- The loops of yaml.rs:135-139, 214-234 and 252-270 over pairs of a key and a scalar. -/
def yPairs : YP (List (Text × Text))
  | .scalar k _ :: .scalar v _ :: evs => (yPairs evs).map fun r => ((k, v) :: r.1, r.2)
  | .scalar _ _ :: _ => none
  | evs => some ([], evs)

/-- A sequence of scalars (yaml.rs:144-153 `table_list`). -/
def yList : YP (List Text) := fun evs => (yEvent .seqStart evs).bind fun r =>
  (yEvent .seqEnd (yScalars r.2).2).map fun r' => ((yScalars r.2).1, r'.2)

/-- A mapping of scalars to scalars (yaml.rs:132-142 `table_query`), in the order of the file. -/
def yMap : YP (List (Text × Text)) := fun evs => (yEvent .mapStart evs).bind fun r =>
  (yPairs r.2).bind fun r => (yEvent .mapEnd r.2).map fun r' => (r.1, r'.2)

/-- `HashMap::get` after the insertions in order: the last one counts. -/
def lastValue (key : Text) (q : List (Text × Text)) : Option Text := ((q.filter (·.1 == key)).getLast?).map (·.2)

/-- yaml.rs:155-177 `table`. -/
def yTable : YP TestTable
  | .mapStart :: evs => (yMap (.mapStart :: evs)).map fun r => (match lastValue "__assert-match".toList r.1 with
      | some v => .simple v
      | none => .query r.1, r.2)
  | .seqStart :: evs => (yList (.seqStart :: evs)).map fun r => (.list r.1, r.2)
  | .scalar v block :: evs => some (if block then .inline v else .simple v, evs)
  | _ => none

/-- yaml.rs:108-130 `display_table`. -/
def yDisplay : YP TestDisplay
  | .seqStart :: evs => (yList (.seqStart :: evs)).map fun r => (.list r.1, r.2)
  | .scalar v block :: evs => some (if block then .inline v
      else if v.contains ',' then .list (splitOn ',' v) else .simple v, evs)
  | _ => none

/-- yaml.rs:186-196: the names of the test modes. -/
def testModeOf (v : Text) : Option TestMode :=
  if v = "forward".toList then some .forward
  else if v = "backward".toList then some .backward
  else if v = "bothDirections".toList then some .bothDirections
  else if v = "display".toList then some .display
  else if v = "hyphenate".toList then some .hyphenate
  else if v = "hyphenateBraille".toList then some .hyphenateBraille
  else none

/-- yaml.rs:179-199 `flags`. -/
def yFlags : YP TestMode := fun evs => (yEvent .mapStart evs).bind fun r =>
  (yScalar r.2).bind fun r => if r.1 = "testmode".toList then
    (yScalar r.2).bind fun r => (testModeOf r.1).bind fun m => (yEvent .mapEnd r.2).map fun r => (m, r.2)
  else none

/-- yaml.rs:201-209 `xfail_value`. -/
def xfailValue (v : Text) : Xfail :=
  if v = "off".toList ∨ v = "false".toList then .simple false
  else if v = "on".toList ∨ v = "true".toList then .simple true
  else .reason v

/-- yaml.rs:214-234, the loop of `xfail_mapping_value` over the pairs: the directions so far. -/
def xfailDirections : List (Text × Text) → Bool × Bool → Option (Bool × Bool)
  | [], ds => some ds
  | (k, v) :: rest, (f, b) =>
    let fails := xfailValue v ≠ .simple false
    if k = "forward".toList then xfailDirections rest (f || fails, b)
    else if k = "backward".toList then xfailDirections rest (f, b || fails)
    else none

/-- yaml.rs:239-247 `xfail`. -/
def yXfail : YP Xfail
  | .mapStart :: evs => (yMap (.mapStart :: evs)).bind fun r =>
    (xfailDirections r.1 (false, false)).map fun ds => (.direction ds.1 ds.2, r.2)
  | .scalar v _ :: evs => some (xfailValue v, evs)
  | _ => none

/-- yaml.rs:255-270: the loop over the characters of a mask; `i` is the position, `run` the start of the current run. -/
def maskLoop (cls : Text) : Text → Nat → Option Nat → List Span
  | [], _, none => []
  | [], i, some s => [⟨cls, s, i⟩]
  | c :: cs, i, run =>
    match c == '+', run with
    | true, none => maskLoop cls cs (i + 1) (some i)
    | false, some s => ⟨cls, s, i⟩ :: maskLoop cls cs (i + 1) none
    | _, run => maskLoop cls cs (i + 1) run

/-- yaml.rs:249-273 `emphasis_spans_value`. -/
def yEmphasis : YP (List Span) := fun evs => (yMap evs).map fun r =>
  (r.1.flatMap fun p => maskLoop p.1 p.2 0 none, r.2)

/-- `u16::from_str`: decimal digits with an optional `+`, below 65536. -/
def parseU16 (l : Text) : Option Nat := (parseUsize l).bind fun n => if n < 65536 then some n else none

/-- yaml.rs:275-279 `u16_value`. -/
def yU16 : YP Nat := fun evs => (yScalar evs).bind fun r => (parseU16 r.1).map fun n => (n, r.2)

/-- yaml.rs:281-290 `pos_values`. -/
def yPositions : YP (List Nat) := fun evs => (yList evs).bind fun r => (allSome parseU16 r.1).map fun ns => (ns, r.2)

/-- yaml.rs:292-303 `cursor_position`. -/
def yCursor : YP CursorPos
  | .seqStart :: evs => (yU16 evs).bind fun a => (yU16 a.2).bind fun b => (yEvent .seqEnd b.2).map fun r => (.tuple a.1 b.1, r.2)
  | evs => (yU16 evs).map fun r => (.single r.1, r.2)

/-- yaml.rs:305-320 `translation_mode_value`. -/
def transModeOf (v : Text) : Option TransMode :=
  if v = "noContractions".toList then some .noContractions
  else if v = "compbrlAtCursor".toList then some .compbrlAtCursor
  else if v = "dotsIO".toList then some .dotsIO
  else if v = "compbrlLeftCursor".toList then some .compbrlLeftCursor
  else if v = "ucBrl".toList then some .ucBrl
  else if v = "noUndefined".toList then some .noUndefined
  else if v = "partialTrans".toList then some .partialTrans
  else none

/-- yaml.rs:322-331 `translation_modes`. -/
def yModes : YP (List TransMode) := fun evs => (yList evs).bind fun r => (allSome transModeOf r.1).map fun ms => (ms, r.2)

/-- yaml.rs:363-395: one option of a test, after its key. -/
def yOption (key : Text) (t : Test) : YP Test := fun evs =>
  if key = "xfail".toList then (yXfail evs).map fun r => ({ t with xfail := r.1 }, r.2)
  else if key = "typeform".toList then (yEmphasis evs).map fun r => ({ t with emphasis := r.1 }, r.2)
  else if key = "expected_typeform".toList then (yEmphasis evs).map fun r => ({ t with expectedEmphasis := r.1 }, r.2)
  else if key = "inputPos".toList then (yPositions evs).map fun r => ({ t with inputPos := r.1 }, r.2)
  else if key = "outputPos".toList then (yPositions evs).map fun r => ({ t with outputPos := r.1 }, r.2)
  else if key = "cursorPos".toList then (yCursor evs).map fun r => ({ t with cursorPos := some r.1 }, r.2)
  else if key = "mode".toList then (yModes evs).map fun r => ({ t with modes := r.1 }, r.2)
  else if key = "maxOutputLength".toList then (yU16 evs).map fun r => ({ t with maxOutputLength := some r.1 }, r.2)
  else if key = "realInputLength".toList then (yU16 evs).map fun r => ({ t with realInputLength := some r.1 }, r.2)
  else none

/-- yaml.rs:361-397, the loop over the options of a test; every round reads an event, so a fuel of the number of events
suffices. -/
def yOptions : Nat → Test → YP Test
  | n + 1, t, .scalar key _ :: evs => (yOption key t evs).bind fun r => yOptions n r.1 r.2
  | _, t, evs => match evs with
    | .scalar _ _ :: _ => none
    | _ => some (t, evs)

/-- yaml.rs:350-358: a test without options. -/
def plainTest (input expected : Text) : Test :=
  ⟨input, expected, .simple false, [], [], [], [], none, [], none, none⟩

/-- yaml.rs:340-349: two scalars, or three of which the first is a description. -/
def yTexts : YP (Text × Text) := fun evs =>
  (yScalar evs).bind fun a => (unescape .default a.1).bind fun x =>
    (yScalar a.2).bind fun b => (unescape .default b.1).bind fun y =>
      match b.2 with
      | .scalar v _ :: evs => (unescape .default v).map fun z => ((y, z), evs)
      | evs => some ((x, y), evs)

/-- yaml.rs:359-399: the options of a test, if there are any. -/
def yTestOptions (t : Test) : YP Test
  | .mapStart :: evs => (yOptions evs.length t evs).bind fun r => (yEvent .mapEnd r.2).map fun r' => (r.1, r'.2)
  | evs => some (t, evs)

/-- yaml.rs:333-415 `test`. -/
def yTest : YP Test := fun evs => (yEvent .seqStart evs).bind fun r => (yTexts r.2).bind fun r =>
  (yTestOptions (plainTest r.1.1 r.1.2) r.2).bind fun r => (yEvent .seqEnd r.2).map fun r' => (r.1, r'.2)

/-- yaml.rs:420-422, the loop of `tests`. -/
def yTestLoop : Nat → YP (List Test)
  | n + 1, .seqStart :: evs => (yTest (.seqStart :: evs)).bind fun r => (yTestLoop n r.2).map fun r' => (r.1 :: r'.1, r'.2)
  | _, evs => match evs with
    | .seqStart :: _ => none
    | _ => some ([], evs)

/-- yaml.rs:417-425 `tests`. -/
def yTests : YP (List Test) := fun evs => (yEvent .seqStart evs).bind fun r => (yTestLoop r.2.length r.2).bind fun r =>
  (yEvent .seqEnd r.2).map fun r' => (r.1, r'.2)

/-- The variables of `yaml` (yaml.rs:464-468); `suites` are the suites read so far. -/
structure YState where
  display : Option TestDisplay
  tables : List TestTable
  mode : TestMode
  afterTable : Bool
  suites : List Suite

/-- yaml.rs:474-510: one entry, after its key. -/
def yEntry (key : Text) (s : YState) : YP YState := fun evs =>
  if key = "display".toList then (yDisplay evs).map fun r => ({ s with display := some r.1, afterTable := false }, r.2)
  else if key = "table".toList then (yTable evs).map fun r =>
    ({ s with tables := (if s.afterTable then s.tables else []) ++ [r.1], afterTable := true }, r.2)
  else if key = "flags".toList then (yFlags evs).map fun r => ({ s with mode := r.1, afterTable := false }, r.2)
  else if key = "tests".toList then (yTests evs).map fun r =>
    ({ s with suites := s.suites ++ [⟨s.display, s.tables, s.mode, r.1⟩], afterTable := false }, r.2)
  else none

/-- yaml.rs:473-511, the loop over the entries of a file. -/
def yEntries : Nat → YState → YP YState
  | n + 1, s, .scalar key _ :: evs => (yEntry key s evs).bind fun r => yEntries n r.1 r.2
  | _, s, evs => match evs with
    | .scalar _ _ :: _ => none
    | _ => some (s, evs)

/-- yaml.rs:463-517 `yaml`: the suites of a file; `none` if the file is not accepted.  Events after the end of the stream are
not read. -/
def yamlSuites (evs : List Ev) : Option (List Suite) :=
  (yEvent (.streamStart true) evs).bind fun r => (yEvent .docStart r.2).bind fun r => (yEvent .mapStart r.2).bind fun r =>
    (yEntries r.2.length ⟨none, [], .forward, false, []⟩ r.2).bind fun r =>
      (yEvent .mapEnd r.2).bind fun r1 => (yEvent .docEnd r1.2).bind fun r2 => (yEvent .streamEnd r2.2).map fun _ => r.1.suites

/-! ## Running the tests -/

/-- test.rs:42-61 `enum TestResult`. -/
inductive TestResult where
  | success
  | failure (input expected actual : Text) (d : Direction)
  | expectedFailure (input expected actual : Text) (d : Direction)
  | unexpectedSuccess (input : Text) (d : Direction)
  deriving Repr, DecidableEq

/-- test.rs:308-330: the verdict on a test for the text it was translated to. -/
def Test.verdict (t : Test) (d : Direction) (translated : Text) : TestResult :=
  if translated = t.expected then
    if !t.xfail.isFailure d then .success else .unexpectedSuccess t.input d
  else if t.xfail.isFailure d then .expectedFailure t.input t.expected translated d
  else .failure t.input t.expected translated d

/-- test.rs:284-331 `Test::check` answers `r`. -/
def Test.Checks (cs : Case) (p : List Transform) (disp : DisplayTable) (d : Direction) (t : Test) (r : TestResult) : Prop :=
  ∃ translated, r = t.verdict d translated ∧ match d with
    | .forward => ∃ mid, Pipeline.Translates cs t.emphasis t.input p mid ∧ translated = disp.translate mid
    | .backward => Pipeline.Translates cs t.emphasis (disp.translate t.input) p translated

/-- test.rs:16-24 `enum TestError`. -/
inductive TestErr where
  | notImplemented
  | tableErrors
  | compilation (e : CompileErr)
  deriving Repr, DecidableEq

/-- parser.rs `table` followed by `expand_includes` with an empty chain: the rules of a table given as text. -/
def inlineRules (fs : Files) (text : Text) : Except TestErr (List Anchored) :=
  match parseTable text none with
  | .error _ => .error .tableErrors
  | .ok rules => match expandIncludes fs (tableExpanded fs) rules with
    | .error _ => .error .tableErrors
    | .ok rules => .ok (anchor rules)

/-- The rules of tables given by their files. -/
def fileRules (fs : Files) (paths : List Text) : Except TestErr (List Anchored) :=
  match allTables fs paths with
  | .error _ => .error .tableErrors
  | .ok rules => .ok (anchor rules)

/-- test.rs:107-122: the rules of the display table. -/
def TestDisplay.rules (fs : Files) : Option TestDisplay → Except TestErr (List Anchored)
  | some (.simple path) => fileRules fs [path]
  | some (.inline text) => inlineRules fs text
  | some (.list paths) => fileRules fs paths
  | none => .ok []

/-- test.rs:106-124 `display_table`. -/
def Suite.displayTable (fs : Files) (s : Suite) (d : Direction) : Except TestErr DisplayTable :=
  match TestDisplay.rules fs s.display with
  | .error e => .error e
  | .ok rules => .ok (DisplayTable.compile rules d)

/-- test.rs:126-148 `translation_table`. -/
def TestTable.pipeline (sys : Sys) (fs : Files) (t : TestTable) (d : Direction) : Except TestErr (List Transform) :=
  match (match t with
    | .simple path => fileRules fs [path]
    | .list paths => fileRules fs paths
    | .inline text => inlineRules fs text
    | .query _ => .error .notImplemented) with
  | .error e => .error e
  | .ok rules => match Pipeline.compile sys rules d with
    | .error e => .error (.compilation e)
    | .ok p => .ok p

/-- `tests.par_iter().map(…).collect()`: the results in the order of the tests. -/
inductive ChecksAll (cs : Case) (p : List Transform) (disp : DisplayTable) (d : Direction) : List Test → List TestResult → Prop where
  | nil : ChecksAll cs p disp d [] []
  | cons {t r ts rs} : t.Checks cs p disp d r → ChecksAll cs p disp d ts rs → ChecksAll cs p disp d (t :: ts) (r :: rs)

/-- test.rs:155-163, 169-177, 182-190 and 197-205, the loop over the tables for one direction: the outcome. -/
inductive RunTables (cs : Case) (sys : Sys) (fs : Files) (disp : DisplayTable) (d : Direction) (tests : List Test) :
    List TestTable → Except TestErr (List TestResult) → Prop where
  | nil : RunTables cs sys fs disp d tests [] (.ok [])
  | error {t ts e} : t.pipeline sys fs d = .error e → RunTables cs sys fs disp d tests (t :: ts) (.error e)
  | cons {t ts p rs rest} : t.pipeline sys fs d = .ok p → ChecksAll cs p disp d tests rs →
    RunTables cs sys fs disp d tests ts (.ok rest) → RunTables cs sys fs disp d tests (t :: ts) (.ok (rs ++ rest))
  | later {t ts p rs e} : t.pipeline sys fs d = .ok p → ChecksAll cs p disp d tests rs →
    RunTables cs sys fs disp d tests ts (.error e) → RunTables cs sys fs disp d tests (t :: ts) (.error e)

/-- One direction of `check`: the display table, then the tables. -/
inductive RunDirection (cs : Case) (sys : Sys) (fs : Files) (s : Suite) (d : Direction) (tests : List Test) :
    Except TestErr (List TestResult) → Prop where
  | display {e} : s.displayTable fs d = .error e → RunDirection cs sys fs s d tests (.error e)
  | tables {disp r} : s.displayTable fs d = .ok disp → RunTables cs sys fs disp d tests s.tables r →
    RunDirection cs sys fs s d tests r

/-- test.rs:150-211 `TestMatrix::check`; `forwardOnly` says that `LOUIS_TEST_FORWARD_ONLY` was set when the program was
compiled. -/
inductive Suite.Runs (cs : Case) (sys : Sys) (fs : Files) (forwardOnly : Bool) (s : Suite) :
    Except TestErr (List TestResult) → Prop where
  | forward {r} : s.mode = .forward → RunDirection cs sys fs s .forward s.tests r → s.Runs cs sys fs forwardOnly r
  | backward {r} : s.mode = .backward → forwardOnly = false → RunDirection cs sys fs s .backward s.tests r →
    s.Runs cs sys fs forwardOnly r
  | skipped : s.mode = .backward → forwardOnly = true → s.Runs cs sys fs forwardOnly (.ok [])
  | bothForwardOnly {r} : s.mode = .bothDirections → forwardOnly = true → RunDirection cs sys fs s .forward s.tests r →
    s.Runs cs sys fs forwardOnly r
  | bothError {e} : s.mode = .bothDirections → forwardOnly = false → RunDirection cs sys fs s .forward s.tests (.error e) →
    s.Runs cs sys fs forwardOnly (.error e)
  | both {rs r} : s.mode = .bothDirections → forwardOnly = false → RunDirection cs sys fs s .forward s.tests (.ok rs) →
    RunDirection cs sys fs s .backward (s.tests.map Test.reverse) r →
    s.Runs cs sys fs forwardOnly (match r with
      | .error e => .error e
      | .ok rs' => .ok (rs ++ rs'))
  | ignored : s.mode = .display ∨ s.mode = .hyphenate ∨ s.mode = .hyphenateBraille → s.Runs cs sys fs forwardOnly (.ok [])

/-- yaml.rs:495-505: the results of the suites, in order; an error ends the file. -/
inductive RunSuites (cs : Case) (sys : Sys) (fs : Files) (forwardOnly : Bool) : List Suite → Except TestErr (List TestResult) → Prop where
  | nil : RunSuites cs sys fs forwardOnly [] (.ok [])
  | error {s ss e} : Suite.Runs cs sys fs forwardOnly s (.error e) → RunSuites cs sys fs forwardOnly (s :: ss) (.error e)
  | cons {s ss rs rest} : Suite.Runs cs sys fs forwardOnly s (.ok rs) → RunSuites cs sys fs forwardOnly ss (.ok rest) →
    RunSuites cs sys fs forwardOnly (s :: ss) (.ok (rs ++ rest))
  | later {s ss rs e} : Suite.Runs cs sys fs forwardOnly s (.ok rs) → RunSuites cs sys fs forwardOnly ss (.error e) →
    RunSuites cs sys fs forwardOnly (s :: ss) (.error e)

/-! ## The command line (main.rs) -/

/-- main.rs:248-268 `struct YAMLTestResult` (without the percentages it is displayed with). -/
structure Summary where
  file : Text
  tests : Nat
  successes : Nat
  failures : Nat
  expectedFailures : Nat
  unexpectedSuccesses : Nat
  deriving Repr, DecidableEq

/-- test.rs:64-75 `is_success`, `is_failure`, `is_expected_failure`, `is_unexpected_success`. -/
def TestResult.isSuccess : TestResult → Bool
  | .success => true
  | _ => false
@[inherit_doc TestResult.isSuccess] def TestResult.isFailure : TestResult → Bool
  | .failure .. => true
  | _ => false
@[inherit_doc TestResult.isSuccess] def TestResult.isExpectedFailure : TestResult → Bool
  | .expectedFailure .. => true
  | _ => false
@[inherit_doc TestResult.isSuccess] def TestResult.isUnexpectedSuccess : TestResult → Bool
  | .unexpectedSuccess .. => true
  | _ => false

/-- main.rs:326-353: the row of a file. -/
def summarize (file : Text) (rs : List TestResult) : Summary :=
  ⟨file, rs.length, (rs.filter (·.isSuccess)).length, (rs.filter (·.isFailure)).length,
    (rs.filter (·.isExpectedFailure)).length, (rs.filter (·.isUnexpectedSuccess)).length⟩

/-- main.rs:287-300 `update`. -/
def Summary.update (t s : Summary) : Summary :=
  ⟨t.file, t.tests + s.tests, t.successes + s.successes, t.failures + s.failures, t.expectedFailures + s.expectedFailures,
    t.unexpectedSuccesses + s.unexpectedSuccesses⟩

/-- main.rs:315-375 `check_yaml`, for the outcomes of the files in order (`none`: an error message is printed): the rows
of the files, in this order, and the total. -/
def checkSummary : List (Text × Option (List TestResult)) → Summary → List Summary × Summary
  | [], total => ([], { total with file := "Total".toList })
  | (_, none) :: rest, total => checkSummary rest total
  | (file, some rs) :: rest, total =>
    let r := checkSummary rest (total.update (summarize file rs))
    (summarize file rs :: r.1, r.2)

/-- main.rs:366-375: the rows shown with `--summary`, `sort_by_key` as a stable sort. -/
def checkRows (outcomes : List (Text × Option (List TestResult))) : List Summary :=
  let r := checkSummary outcomes ⟨[], 0, 0, 0, 0, 0⟩
  stableSort (fun a b => decide (a.tests < b.tests)) r.1 ++ [r.2]

/-- main.rs:354-358: the results printed without `--summary`. -/
def checkPrinted (outcomes : List (Text × Option (List TestResult))) : List TestResult :=
  outcomes.flatMap fun o => match o.2 with
    | none => []
    | some rs => rs.filter (!·.isSuccess)

/-- main.rs:440-446: the query of the command line; `parts[1]` panics if there is no `=`. -/
def parseQuery (arg : Text) : Except Fault (List (Text × Text)) :=
  (splitOn ',' arg).foldr (fun piece acc => match splitOn '=' piece with
    | k :: v :: _ => match acc with
      | .ok q => .ok ((k, v) :: q)
      | .error e => .error e
    | _ => .error .panic) (.ok [])

/-- main.rs:438-448: the answer to a query of the command line. -/
def queryCommand (index : Index) (arg : Text) : Except Fault (List Text) :=
  match parseQuery arg with
  | .ok q => findTables index q
  | .error e => .error e

/-- main.rs:155-172: the translations shown by `trace`: those of the main stage and those that a rule is named for. -/
def shownTrace (tss : List (List Resolved)) : List (Nat × Resolved) :=
  ((tss.flatten.filter fun t => t.stage == .main || t.origin.isSome).zipIdx).map fun r => (r.2 + 1, r.1)

end Louis
