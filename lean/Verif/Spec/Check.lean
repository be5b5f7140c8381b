import Verif.Model.Check
import Verif.Spec.Dic
import Verif.Spec.Each

/-!
# Specification of test files

The form of a test file as a grammar over the events of a YAML file, and what its entries mean.  The grammar does not use the
reader of the model, only its data types.
-/

namespace Louis

/-- A scalar, in whatever style. -/
inductive ScalarSrc : List Ev → Text → Prop where
  | mk (v block) : ScalarSrc [.scalar v block] v

/-- Scalars in a row. -/
inductive ScalarsSrc : List Ev → List Text → Prop where
  | nil : ScalarsSrc [] []
  | cons {v block evs vs} : ScalarsSrc evs vs → ScalarsSrc (.scalar v block :: evs) (v :: vs)

/-- A sequence of scalars. -/
inductive SeqSrc : List Ev → List Text → Prop where
  | mk {evs vs} : ScalarsSrc evs vs → SeqSrc (.seqStart :: evs ++ [.seqEnd]) vs

/-- Keys and values in turn, all scalars. -/
inductive PairsSrc : List Ev → List (Text × Text) → Prop where
  | nil : PairsSrc [] []
  | cons {k b v b' evs ps} : PairsSrc evs ps → PairsSrc (.scalar k b :: .scalar v b' :: evs) ((k, v) :: ps)

/-- A mapping of scalars to scalars. -/
inductive MapSrc : List Ev → List (Text × Text) → Prop where
  | mk {evs ps} : PairsSrc evs ps → MapSrc (.mapStart :: evs ++ [.mapEnd]) ps

/-- A table: a block scalar is the table itself, another scalar its file, a sequence the files of several tables, a mapping a
query, unless it names the table that should be found (`__assert-match`; the last one counts). -/
inductive TableSrc : List Ev → TestTable → Prop where
  | inline (v) : TableSrc [.scalar v true] (.inline v)
  | file (v) : TableSrc [.scalar v false] (.simple v)
  | list {evs vs} : SeqSrc evs vs → TableSrc evs (.list vs)
  | asserted {evs ps qs v} : MapSrc evs (ps ++ ("__assert-match".toList, v) :: qs) →
    (∀ q ∈ qs, q.1 ≠ "__assert-match".toList) → TableSrc evs (.simple v)
  | query {evs ps} : MapSrc evs ps → (∀ q ∈ ps, q.1 ≠ "__assert-match".toList) → TableSrc evs (.query ps)

/-- The pieces of a text between commas. -/
inductive CommaList : Text → List Text → Prop where
  | last {s} : ',' ∉ s → CommaList s [s]
  | cons {s rest ps} : ',' ∉ s → CommaList rest ps → CommaList (s ++ ',' :: rest) (s :: ps)

/-- A display table: as a table, but without queries; a scalar with commas names several files. -/
inductive DisplaySrc : List Ev → TestDisplay → Prop where
  | inline (v) : DisplaySrc [.scalar v true] (.inline v)
  | file {v} : ',' ∉ v → DisplaySrc [.scalar v false] (.simple v)
  | files {v ps} : ',' ∈ v → CommaList v ps → DisplaySrc [.scalar v false] (.list ps)
  | list {evs vs} : SeqSrc evs vs → DisplaySrc evs (.list vs)

/-- The names of the test modes. -/
def testModeName : TestMode → Text
  | .forward => "forward".toList
  | .backward => "backward".toList
  | .bothDirections => "bothDirections".toList
  | .display => "display".toList
  | .hyphenate => "hyphenate".toList
  | .hyphenateBraille => "hyphenateBraille".toList

/-- Flags: a mapping with the one key `testmode`. -/
inductive FlagsSrc : List Ev → TestMode → Prop where
  | mk {evs m} : MapSrc evs [("testmode".toList, testModeName m)] → FlagsSrc evs m

/-- What the value of `xfail` says. -/
inductive XfailValue : Text → Xfail → Prop where
  | no {v} : v = "off".toList ∨ v = "false".toList → XfailValue v (.simple false)
  | yes {v} : v = "on".toList ∨ v = "true".toList → XfailValue v (.simple true)
  | reason {v} : v ≠ "off".toList → v ≠ "false".toList → v ≠ "on".toList → v ≠ "true".toList → XfailValue v (.reason v)

/-- The pairs say that tests fail in the direction with this name. -/
def Says (ps : List (Text × Text)) (name : Text) : Prop := ∃ v, (name, v) ∈ ps ∧ ¬ XfailValue v (.simple false)

/-- The value of `xfail`: one value, or one for each direction. -/
inductive XfailSrc : List Ev → Xfail → Prop where
  | scalar {evs v x} : ScalarSrc evs v → XfailValue v x → XfailSrc evs x
  | directions {evs ps f b} : MapSrc evs ps → (∀ p ∈ ps, p.1 = "forward".toList ∨ p.1 = "backward".toList) →
    (f = true ↔ Says ps "forward".toList) → (b = true ↔ Says ps "backward".toList) → XfailSrc evs (.direction f b)

/-- From `start` up to `stop` there are only `+`, neither before nor after is there another one. -/
structure MaskRun (mask : Text) (start stop : Nat) : Prop where
  nonempty : start < stop
  inside : ∀ i, start ≤ i → i < stop → mask[i]? = some '+'
  before : ∀ i, i + 1 = start → mask[i]? ≠ some '+'
  after : mask[stop]? ≠ some '+'

/-- The spans of a mask: its runs of `+`, from left to right. -/
structure MaskSpans (cls mask : Text) (spans : List Span) : Prop where
  runs : ∀ sp, sp ∈ spans ↔ sp.cls = cls ∧ MaskRun mask sp.start sp.stop
  order : spans.Pairwise fun a b => a.stop < b.start

/-- The spans of all classes: those of each class, in the order of the file. -/
inductive EmphasisSpans : List (Text × Text) → List Span → Prop where
  | nil : EmphasisSpans [] []
  | cons {cls mask ps spans rest} : MaskSpans cls mask spans → EmphasisSpans ps rest →
    EmphasisSpans ((cls, mask) :: ps) (spans ++ rest)

/-- A typeform. -/
inductive TypeformSrc : List Ev → List Span → Prop where
  | mk {evs ps spans} : MapSrc evs ps → EmphasisSpans ps spans → TypeformSrc evs spans

/-- A number of 16 bits. -/
def U16Src (v : Text) (n : Nat) : Prop := SizeSrc v n ∧ n < 65536

/-- Numbers, one for each text. -/
inductive U16sSrc : List Text → List Nat → Prop where
  | nil : U16sSrc [] []
  | cons {v n vs ns} : U16Src v n → U16sSrc vs ns → U16sSrc (v :: vs) (n :: ns)

/-- A cursor position. -/
inductive CursorSrc : List Ev → CursorPos → Prop where
  | single {evs v n} : ScalarSrc evs v → U16Src v n → CursorSrc evs (.single n)
  | tuple {evs v w n m} : SeqSrc evs [v, w] → U16Src v n → U16Src w m → CursorSrc evs (.tuple n m)

/-- The names of the translation modes. -/
def transModeName : TransMode → Text
  | .noContractions => "noContractions".toList
  | .compbrlAtCursor => "compbrlAtCursor".toList
  | .dotsIO => "dotsIO".toList
  | .compbrlLeftCursor => "compbrlLeftCursor".toList
  | .ucBrl => "ucBrl".toList
  | .noUndefined => "noUndefined".toList
  | .partialTrans => "partialTrans".toList

/-- An option of a test: its key and its value, and the test with the option set. -/
inductive OptionSrc (t : Test) : Text → List Ev → Test → Prop where
  | xfail {evs x} : XfailSrc evs x → OptionSrc t "xfail".toList evs { t with xfail := x }
  | typeform {evs x} : TypeformSrc evs x → OptionSrc t "typeform".toList evs { t with emphasis := x }
  | expectedTypeform {evs x} : TypeformSrc evs x → OptionSrc t "expected_typeform".toList evs { t with expectedEmphasis := x }
  | inputPos {evs vs ns} : SeqSrc evs vs → U16sSrc vs ns → OptionSrc t "inputPos".toList evs { t with inputPos := ns }
  | outputPos {evs vs ns} : SeqSrc evs vs → U16sSrc vs ns → OptionSrc t "outputPos".toList evs { t with outputPos := ns }
  | cursorPos {evs p} : CursorSrc evs p → OptionSrc t "cursorPos".toList evs { t with cursorPos := some p }
  | mode {evs ms} : SeqSrc evs (ms.map transModeName) → OptionSrc t "mode".toList evs { t with modes := ms }
  | maxOutputLength {evs v n} : ScalarSrc evs v → U16Src v n →
    OptionSrc t "maxOutputLength".toList evs { t with maxOutputLength := some n }
  | realInputLength {evs v n} : ScalarSrc evs v → U16Src v n →
    OptionSrc t "realInputLength".toList evs { t with realInputLength := some n }

/-- Options, from left to right: a later one replaces an earlier one with the same key. -/
inductive OptionsSrc : Test → List Ev → Test → Prop where
  | nil {t} : OptionsSrc t [] t
  | cons {t key b evs t' evs' t''} : OptionSrc t key evs t' → OptionsSrc t' evs' t'' →
    OptionsSrc t (.scalar key b :: evs ++ evs') t''

/-- The text a scalar stands for: its escape sequences are replaced, as in a table. -/
def Unescaped (v t : Text) : Prop := Decodes .default v t

/-- The test without options. -/
def bareTest (input expected : Text) : Test where
  input := input
  expected := expected
  xfail := .simple false
  emphasis := []
  expectedEmphasis := []
  inputPos := []
  outputPos := []
  cursorPos := none
  modes := []
  maxOutputLength := none
  realInputLength := none

/-- What follows the texts of a test: nothing, or a mapping with its options. -/
inductive TestTail : Test → List Ev → Test → Prop where
  | bare {t} : TestTail t [] t
  | options {t evs t'} : OptionsSrc t evs t' → TestTail t (.mapStart :: evs ++ [.mapEnd]) t'

/-- A test: the text and what it should be translated to, perhaps after a description, perhaps before options. -/
inductive YTestSrc : List Ev → Test → Prop where
  | two {v b w b' x y tail t} : Unescaped v x → Unescaped w y → TestTail (bareTest x y) tail t →
    YTestSrc (.seqStart :: .scalar v b :: .scalar w b' :: tail ++ [.seqEnd]) t
  | three {d b v b' w b'' z x y tail t} : Unescaped d z → Unescaped v x → Unescaped w y → TestTail (bareTest x y) tail t →
    YTestSrc (.seqStart :: .scalar d b :: .scalar v b' :: .scalar w b'' :: tail ++ [.seqEnd]) t

/-- Tests in a row. -/
inductive YTestsSrc : List Ev → List Test → Prop where
  | nil : YTestsSrc [] []
  | cons {evs t evs' ts} : YTestSrc evs t → YTestsSrc evs' ts → YTestsSrc (evs ++ evs') (t :: ts)

/-- An entry of a test file. -/
inductive Entry where
  | display (d : TestDisplay)
  | table (t : TestTable)
  | flags (m : TestMode)
  | tests (ts : List Test)

/-- An entry: its key and its value. -/
inductive EntrySrc : List Ev → Entry → Prop where
  | display {b evs d} : DisplaySrc evs d → EntrySrc (.scalar "display".toList b :: evs) (.display d)
  | table {b evs t} : TableSrc evs t → EntrySrc (.scalar "table".toList b :: evs) (.table t)
  | flags {b evs m} : FlagsSrc evs m → EntrySrc (.scalar "flags".toList b :: evs) (.flags m)
  | tests {b evs ts} : YTestsSrc evs ts → EntrySrc (.scalar "tests".toList b :: .seqStart :: evs ++ [.seqEnd]) (.tests ts)

/-- Entries in a row. -/
inductive EntriesSrc : List Ev → List Entry → Prop where
  | nil : EntriesSrc [] []
  | cons {evs e evs' es} : EntrySrc evs e → EntriesSrc evs' es → EntriesSrc (evs ++ evs') (e :: es)

/-- A test file: one document in UTF-8, a mapping with these entries. -/
inductive FileSrc : List Ev → List Entry → Prop where
  | mk {evs es} : EntriesSrc evs es →
    FileSrc (.streamStart true :: .docStart :: .mapStart :: evs ++ [.mapEnd, .docEnd, .streamEnd]) es

/-- The display table in force after the entries `pre`: that of the last entry for one. -/
def DisplayIn (pre : List Entry) (d : Option TestDisplay) : Prop :=
  (d = none ∧ ∀ x, .display x ∉ pre) ∨ ∃ x a b, d = some x ∧ pre = a ++ .display x :: b ∧ ∀ y, .display y ∉ b

/-- The test mode in force: that of the last entry with flags, forward if there is none. -/
def ModeIn (pre : List Entry) (m : TestMode) : Prop :=
  (m = .forward ∧ ∀ x, .flags x ∉ pre) ∨ ∃ a b, pre = a ++ .flags m :: b ∧ ∀ y, .flags y ∉ b

/-- The tables in force: those of the last entries with tables that follow one another. -/
def TablesIn (pre : List Entry) (ts : List TestTable) : Prop :=
  (ts = [] ∧ ∀ x, .table x ∉ pre) ∨
    ∃ a b, ts ≠ [] ∧ pre = a ++ ts.map .table ++ b ∧ (∀ y, .table y ∉ b) ∧ ∀ y, a.getLast? ≠ some (.table y)

/-- The suites of a file, one for each entry with tests: its tests, to be run with the display table, the tables and the mode
in force there.  `pre` are the entries before. -/
inductive SuitesFrom : List Entry → List Entry → List Suite → Prop where
  | done {pre} : SuitesFrom pre [] []
  | tests {pre d tables m ts rest ss} : DisplayIn pre d → TablesIn pre tables → ModeIn pre m →
    SuitesFrom (pre ++ [.tests ts]) rest ss → SuitesFrom pre (.tests ts :: rest) (⟨d, tables, m, ts⟩ :: ss)
  | other {pre e rest ss} : (∀ ts, e ≠ .tests ts) → SuitesFrom (pre ++ [e]) rest ss → SuitesFrom pre (e :: rest) ss

/-! ## What running a suite answers -/

/-- The test is marked as failing in this direction: by a plain `xfail: on`, by a reason, or for this direction. -/
def MarkedFailing (x : Xfail) (d : Direction) : Prop :=
  x = .simple true ∨ (∃ why, x = .reason why) ∨
    (d = .forward ∧ ∃ b, x = .direction true b) ∨ (d = .backward ∧ ∃ f, x = .direction f true)

/-- The verdict on a test of `input` that should give `expected` and gave `actual`. -/
inductive Verdict (input expected actual : Text) (x : Xfail) (d : Direction) : TestResult → Prop where
  | success : actual = expected → ¬ MarkedFailing x d → Verdict input expected actual x d .success
  | unexpectedSuccess : actual = expected → MarkedFailing x d → Verdict input expected actual x d (.unexpectedSuccess input d)
  | expectedFailure : actual ≠ expected → MarkedFailing x d →
    Verdict input expected actual x d (.expectedFailure input expected actual d)
  | failure : actual ≠ expected → ¬ MarkedFailing x d → Verdict input expected actual x d (.failure input expected actual d)

/-- The directions a mode asks for, in order. -/
def directionsOf : TestMode → List Direction
  | .forward => [.forward]
  | .backward => [.backward]
  | .bothDirections => [.forward, .backward]
  | .display => []
  | .hyphenate => []
  | .hyphenateBraille => []

/-- A single run: the table, the direction, the text to translate and the text it should be translated to. -/
structure OneRun where
  display : Option TestDisplay
  table : TestTable
  dir : Direction
  input : Text
  expected : Text
  test : Test

/-- The runs of a suite: for each direction, for each table, each test.  When a suite is run in both directions the texts of
its tests change places for the way back.  Without backward tests only the runs forward remain. -/
def testRuns (forwardOnly : Bool) (s : Suite) : List OneRun :=
  ((directionsOf s.mode).filter fun d => !(forwardOnly && d == .backward)).flatMap fun d => s.tables.flatMap fun tb =>
    s.tests.map fun t =>
      if s.mode = .bothDirections ∧ d = .backward then ⟨s.display, tb, d, t.expected, t.input, t⟩
      else ⟨s.display, tb, d, t.input, t.expected, t⟩

/-- What a run answers: with the display table and the translator for its direction the text is translated (with the emphasis
of the test) and compared.  The display table is applied to what is braille: forward to the result, backward to the input. -/
def OneRun.Answers (cs : Case) (sys : Sys) (fs : Files) (r : OneRun) (res : TestResult) : Prop :=
  ∃ rules disp p actual, TestDisplay.rules fs r.display = .ok rules ∧ disp = DisplayTable.compile rules r.dir ∧
    r.table.pipeline sys fs r.dir = .ok p ∧
    (match r.dir with
      | .forward => ∃ braille, Pipeline.Translates cs r.test.emphasis r.input p braille ∧ actual = disp.translate braille
      | .backward => ∃ braille, braille = disp.translate r.input ∧ Pipeline.Translates cs r.test.emphasis braille p actual) ∧
    Verdict r.input r.expected actual r.test.xfail r.dir res

/-- Everything a suite needs can be read and compiled: its display table and, for each direction, its tables. -/
def Suite.Usable (sys : Sys) (fs : Files) (forwardOnly : Bool) (s : Suite) : Prop :=
  ∀ d ∈ (directionsOf s.mode).filter (fun d => !(forwardOnly && d == .backward)),
    (∃ rules, TestDisplay.rules fs s.display = .ok rules) ∧ ∀ tb ∈ s.tables, ∃ p, tb.pipeline sys fs d = .ok p

/-! ## Reports -/

/-- The pairs of a query as it is written on the command line: pieces between commas, each of them a key, `=` and a value (up
to another `=`, after which nothing counts). -/
inductive QuerySrc : Text → List (Text × Text) → Prop where
  | mk {arg pieces q} : CommaList arg pieces →
    Each (fun piece kv => '=' ∉ kv.1 ∧ '=' ∉ kv.2 ∧
      (piece = kv.1 ++ '=' :: kv.2 ∨ ∃ rest, piece = kv.1 ++ '=' :: kv.2 ++ '=' :: rest)) pieces q → QuerySrc arg q

end Louis
