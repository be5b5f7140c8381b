import Verif.Model.RuleParser
import Verif.Model.Pipeline

/-!
# Model of `Translator::new` and `Translator::from_table_source` (`src/lib.rs`), from the text of the tables on
-/

namespace Louis

/-- lib.rs:87-99 `Translator::from_table_source`, from the table text on. -/
def translatorFromSource (sys : Sys) (text : Text) (d : Direction) : Except NewErr (List Transform) :=
  fromTableSource sys (match parseTable text none with
    | .ok rules => some (anchor rules)
    | .error _ => none) d

/-- lib.rs:72-79: the rules of all tables; the first table that is not accepted ends the loop. -/
def allTables (fs : Files) : List Text → Except (List TableErr) (List (Rule × Loc))
  | [] => .ok []
  | file :: files => match tableExpanded fs file with
    | .error es => .error es
    | .ok rules => match allTables fs files with
      | .error es => .error es
      | .ok more => .ok (rules ++ more)

/-- lib.rs:68-81 `Translator::new`, from the files on. -/
def translatorNew (sys : Sys) (fs : Files) (files : List Text) (d : Direction) : Except NewErr (List Transform) :=
  match allTables fs files with
  | .error _ => .error .parse
  | .ok rules => match Pipeline.compile sys (anchor rules) d with
    | .error e => .error (.compile e)
    | .ok p => .ok p

end Louis
