import Verif.Model.Check
import Verif.Model.RuleParser

/-!
# Model of the table search over directories (`metadata.rs` `index`) and of the `query` command of `main.rs`

The search path itself (the directories of `LOUIS_TABLE_PATH`, or `.`) is given as a list of directories.
-/

namespace Louis

open Regexp (Fault)

/-- What the file system tells: the entries of a directory, `none` if it cannot be read (and `none` for an entry that cannot be
read); the text of a file, `none` if it cannot be read or is not UTF-8 (as for a directory). -/
structure Folders where
  entries : Text → Option (List (Option Text))
  read : Text → Option Text

/-- metadata.rs:39-41: `for dir in search_path.iter() { for entry in fs::read_dir(dir)? { let path = entry?.path(); … } }`, the
paths in order; `none` is the error returned by `?`. -/
def Folders.paths (fs : Folders) : List Text → Option (List Text)
  | [] => some []
  | dir :: dirs =>
    match fs.entries dir with
    | none => none
    | some es =>
      match allSome id es with
      | none => none
      | some ps => (fs.paths dirs).map fun rest => ps ++ rest

/-- metadata.rs:34-66 `index`: a file that cannot be read is passed over (metadata.rs:43). -/
def Folders.index (ws : Char → Bool) (fs : Folders) (dirs : List Text) : Option Index :=
  (fs.paths dirs).map fun ps => buildIndex ws (ps.filterMap fun p => (fs.read p).map fun content => (p, lines content))

/-- What `louis query` answers. -/
inductive QueryReply where
  /-- `eprint!("Could not index all tables: {:?}", e)` -/
  | notIndexed
  /-- `println!("{:?}", …)` of the set of paths -/
  | found (paths : List Text)
  | panic
  deriving Repr, DecidableEq

/-- main.rs:439-453. -/
def queryReply (ws : Char → Bool) (fs : Folders) (dirs : List Text) (arg : Text) : QueryReply :=
  match fs.index ws dirs with
  | none => .notIndexed
  | some index =>
    match queryCommand index arg with
    | .ok paths => .found paths
    | .error _ => .panic

end Louis
