import Verif.Model.Cli

/-!
# C81, C82: what the user of the command line sees
-/

namespace Louis

/-- What appears on the standard output, but for rules and tables. -/
def printed : List Piece → Text
  | [] => []
  | .out t :: ps => t ++ printed ps
  | _ :: ps => printed ps

/-- What appears on the standard error stream. -/
def complaints : List Piece → List Complaint
  | [] => []
  | .err c :: ps => c :: complaints ps
  | _ :: ps => complaints ps

/-- The tables of the trace that appear. -/
def tracesShown : List Piece → List (List TraceRow)
  | [] => []
  | .table rows :: ps => rows :: tracesShown ps
  | _ :: ps => tracesShown ps

/-- The rules that appear. -/
def rulesShown : List Piece → List Rule
  | [] => []
  | .rule r :: ps => r :: rulesShown ps
  | _ :: ps => rulesShown ps

/-- The program panics. -/
def panics : List Piece → Prop
  | [] => False
  | .panic :: _ => True
  | _ :: ps => panics ps

/-- `Translator::new` with these tables succeeds, and the translator translates `input` to `out`. -/
def LibraryTranslates (sys : Sys) (fs : Files) (cs : Case) (files : List Text) (d : Direction) (input out : Text) : Prop :=
  ∃ rules steps, allTables fs files = .ok rules ∧ Pipeline.Compiles sys (anchor rules) d steps ∧ Pipeline.Translates cs [] input steps out

/-- `Translator::new` with these tables fails. -/
def LibraryRefuses (sys : Sys) (fs : Files) (files : List Text) (d : Direction) : Prop := ∃ e, translatorNew sys fs files d = .error e

/-- The standard input yields these lines, and then ends or goes on with a line that is not text. -/
def Yields (ls : List Text) (stdin : List (Option Text)) : Prop :=
  stdin = ls.map some ∨ ∃ more, stdin = ls.map some ++ none :: more

/-- What a session looks like: a prompt, and after each answer a line feed and a prompt. -/
def sessionText (answers : List Text) : Text := "> ".toList ++ answers.flatMap (· ++ "\n> ".toList)

end Louis
