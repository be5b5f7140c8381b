import Verif.Model.Source
import Verif.Model.Show
import Verif.Spec.Pipeline

/-!
# Model of the `parse`, `translate` and `trace` commands of `src/main.rs`

Commands are relations between what they are given and the pieces they write, in order.  The `{:?}` format of rules and errors and
the drawing of tables are not modelled: a piece holds the value that is shown.  The exit code is 0 in every case but a panic.
-/

namespace Louis

open Regexp (Fault)

/-- What is written to the standard error stream (main.rs:107-117, 196, 212, 243). -/
inductive Complaint where
  | table (e : TableErr)
  | compile (e : CompileErr)
  | line
  deriving Repr, DecidableEq

/-- What the commands write. -/
inductive Piece where
  /-- `print!`, or `println!` if the text ends with a line feed -/
  | out (text : Text)
  /-- `println!("{:?}", rule)` -/
  | rule (r : Rule)
  /-- `println!("{}", table)` in `print_trace` -/
  | table (rows : List TraceRow)
  /-- `eprintln!` -/
  | err (c : Complaint)
  /-- the program panics -/
  | panic

/-- main.rs:187-201, 205-217, 392-402, 419-430: the table is read and compiled, and then used; otherwise the errors are printed. -/
inductive WithTable (sys : Sys) (fs : Files) (file : Text) (d : Direction)
    (use : List Anchored → List Transform → List Piece → Prop) : List Piece → Prop
  | used (rules : List (Rule × Loc)) (steps : List Transform) (ps : List Piece) (h : tableExpanded fs file = .ok rules)
      (hc : Pipeline.Compiles sys (anchor rules) d steps) (hu : use (anchor rules) steps ps) : WithTable sys fs file d use ps
  | notCompiled (rules : List (Rule × Loc)) (e : CompileErr) (h : tableExpanded fs file = .ok rules)
      (hc : Pipeline.compile sys (anchor rules) d = .error e) (hp : e ≠ .panic) : WithTable sys fs file d use [.err (.compile e)]
  | panicked (rules : List (Rule × Loc)) (h : tableExpanded fs file = .ok rules)
      (hc : Pipeline.compile sys (anchor rules) d = .error .panic) : WithTable sys fs file d use [.panic]
  | notRead (es : List TableErr) (h : tableExpanded fs file = .error es) :
      WithTable sys fs file d use (es.map fun e => .err (.table e))

/-- main.rs:210 and 398: `println!("{}", table.translate(input))`. -/
def TranslateLine (cs : Case) (_rules : List Anchored) (steps : List Transform) (input : Text) (ps : List Piece) : Prop :=
  ∃ out, Pipeline.Translates cs [] input steps out ∧ ps = [.out (out ++ ['\n'])]

/-- main.rs:192-193 and 425-426: the translation, then the trace. -/
def TraceLine (ord : Orders) (cs : Case) (rules : List Anchored) (steps : List Transform) (input : Text) (ps : List Piece) : Prop :=
  ∃ out tss, Pipeline.Translates cs [] input steps out ∧ Pipeline.Traces cs [] input steps tss ∧
    ps = .out (out ++ ['\n']) :: (match traceRows ord rules tss with
      | .ok rows => [.table rows]
      | .error _ => [.panic])

/-- main.rs:238-246 `parse_line`. -/
def parseReply (line : Text) : List Piece :=
  if line.head? ≠ some '#' ∧ line ≠ [] then
    match parseLine line with
    | some r => [.rule r]
    | none => [.err .line]
  else []

/-- main.rs:228-235, the loop of `repl`, for what the standard input yields line by line (`none`: a line that is not valid UTF-8). -/
inductive ReplLoop (handler : Text → List Piece → Prop) : List (Option Text) → List Piece → Prop
  | done : ReplLoop handler [] []
  | unreadable (more : List (Option Text)) : ReplLoop handler (none :: more) []
  | panicked (line : Text) (more : List (Option Text)) (ps : List Piece) (h : handler line ps) (hp : Piece.panic ∈ ps) :
      ReplLoop handler (some line :: more) ps
  | line (line : Text) (more : List (Option Text)) (ps qs : List Piece) (h : handler line ps) (hp : Piece.panic ∉ ps)
      (rest : ReplLoop handler more qs) : ReplLoop handler (some line :: more) (ps ++ .out ['>', ' '] :: qs)

/-- main.rs:223-236 `repl`. -/
def Repl (handler : Text → List Piece → Prop) (stdin : List (Option Text)) (ps : List Piece) : Prop :=
  ∃ qs, ReplLoop handler stdin qs ∧ ps = .out ['>', ' '] :: qs

/-- main.rs:204-217, 388-390: `louis translate TABLE INPUT`. -/
def TranslateCommand (sys : Sys) (fs : Files) (cs : Case) (file : Text) (d : Direction) (input : Text) (ps : List Piece) : Prop :=
  WithTable sys fs file d (fun rules steps ps => TranslateLine cs rules steps input ps) ps

/-- main.rs:391-406: `louis translate TABLE`. -/
def TranslateSession (sys : Sys) (fs : Files) (cs : Case) (file : Text) (d : Direction) (stdin : List (Option Text)) (ps : List Piece) : Prop :=
  WithTable sys fs file d (fun rules steps ps => Repl (TranslateLine cs rules steps) stdin ps) ps

/-- main.rs:186-202, 415-417: `louis trace TABLE INPUT`. -/
def TraceCommand (ord : Orders) (sys : Sys) (fs : Files) (cs : Case) (file : Text) (d : Direction) (input : Text) (ps : List Piece) : Prop :=
  WithTable sys fs file d (fun rules steps ps => TraceLine ord cs rules steps input ps) ps

/-- main.rs:418-434: `louis trace TABLE`. -/
def TraceSession (ord : Orders) (sys : Sys) (fs : Files) (cs : Case) (file : Text) (d : Direction) (stdin : List (Option Text))
    (ps : List Piece) : Prop :=
  WithTable sys fs file d (fun rules steps ps => Repl (TraceLine ord cs rules steps) stdin ps) ps

/-- main.rs:119-130: `louis parse TABLE`. -/
def parseCommand (fs : Files) (file : Text) : List Piece :=
  match tableExpanded fs file with
  | .ok rules => rules.map fun r => .rule r.1
  | .error es => es.map fun e => .err (.table e)

/-- main.rs:383-385: `louis parse`. -/
def ParseSession (stdin : List (Option Text)) (ps : List Piece) : Prop := Repl (fun line ps => ps = parseReply line) stdin ps

end Louis
