import Verif.Model.Table
import Verif.Model.Constrain

/-!
# Models of the display table (`translator.rs`), the position maps (`lib.rs`), the computer-braille scanner
(`table/primary.rs`) and the table search (`metadata.rs`)
-/

namespace Louis

open Regexp (Fault)

/-! ## Display tables (translator.rs:94-142) -/

/-- translator.rs:95-97 `struct DisplayTable`: the insertions, of which the first for a key counts
(`entry(from).or_insert(to)`). -/
abbrev DisplayTable := List (Char × Char)

/-- translator.rs:100-129 `DisplayTable::compile`. -/
def DisplayTable.compile (rules : List Anchored) (d : Direction) : DisplayTable :=
  (rules.filter (·.rule.isDirection d)).filterMap fun r => match r.rule with
    | .display c dots _ => match d with
      | .forward => some (dots.toUnicode, c)
      | .backward => some (c, dots.toUnicode)
    | _ => none

/-- `HashMap::get`. -/
def DisplayTable.get (t : DisplayTable) (c : Char) : Option Char := (t.find? (·.1 == c)).map (·.2)

/-- translator.rs:136-141 `DisplayTable::translate`. -/
def DisplayTable.translate (t : DisplayTable) (input : Text) : Text := input.map fun c => (t.get c).getD c

/-! ## Position maps (lib.rs:101-131) -/

/-- lib.rs:101-115 `compute_output_positions`, with the offset reached so far. -/
def outputPositionsFrom (offset : Nat) : List Resolved → List Nat
  | [] => []
  | t :: ts =>
    (List.range t.input.length).map (fun i => offset + min i (t.output.length - 1)) ++
      outputPositionsFrom (offset + t.output.length) ts

def outputPositions (ts : List Resolved) : List Nat := outputPositionsFrom 0 ts

/-- lib.rs:117-131 `compute_input_positions`, with the offset reached so far. -/
def inputPositionsFrom (offset : Nat) : List Resolved → List Nat
  | [] => []
  | t :: ts =>
    (List.range t.output.length).map (fun i => offset + min i (t.input.length - 1)) ++
      inputPositionsFrom (offset + t.input.length) ts

def inputPositions (ts : List Resolved) : List Nat := inputPositionsFrom 0 ts

/-! ## Computer-braille scanner (table/primary.rs:42-87) -/

/-- primary.rs:62-67: scan backwards for a space; the argument is the text before the position, reversed. -/
def wordBack (space : Char → Bool) : Text → Nat
  | [] => 0
  | c :: cs => if space c then 0 else wordBack space cs + 1

/-- primary.rs:68-72: scan forwards for a space. -/
def wordAhead (space : Char → Bool) : Text → Nat
  | [] => 0
  | c :: cs => if space c then 0 else wordAhead space cs + 1

/-- primary.rs:53-83, the loop of `enrich`; `none` means that the fuel (which the Rust loop does not have) ran out. -/
def scanLoop (triggers : List Text) (space : Char → Bool) (chars : Text) : Nat → Nat → List Span → Option (List Span)
  | 0, _, _ => none
  | fuel + 1, pos, spans =>
    if pos < chars.length then
      if triggers.any (·.isPrefixOf (chars.drop pos)) then
        let start := pos - wordBack space (chars.take pos).reverse
        let stop := pos + wordAhead space (chars.drop pos)
        let span : Span := ⟨computerBraille, start, stop⟩
        scanLoop triggers space chars fuel stop (if spans.contains span then spans else spans ++ [span])
      else scanLoop triggers space chars fuel (pos + 1) spans
    else some spans

/-- primary.rs:48-86 `CompbrlScanner::enrich` returns `result`. -/
def Enriches (triggers : List Text) (space : Char → Bool) (input : Text) (spans result : List Span) : Prop :=
  ∃ fuel, scanLoop triggers space input fuel 0 spans = some result

/-! ## Table search (metadata.rs) -/

/-- metadata.rs:17 `type Index`: for each key and value, the tables that carry it. -/
abbrev Index := List ((Text × Text) × List Text)

/-- metadata.rs:55-58 `entry((k, v)).or_default().insert(path)`. -/
def Index.add (key : Text × Text) (path : Text) : Index → Index
  | [] => [(key, [path])]
  | (k, ps) :: rest => if k = key then (k, if ps.contains path then ps else ps ++ [path]) :: rest else (k, ps) :: Index.add key path rest

/-- `index.get(&key)`. -/
def Index.get (index : Index) (key : Text × Text) : Option (List Text) := (index.find? (·.1 == key)).map (·.2)

/-- metadata.rs:19-32 `find`; `candidates[0]` panics for an empty query. -/
def findTables (index : Index) (query : List (Text × Text)) : Except Fault (List Text) :=
  let candidates := query.map index.get
  if candidates.any (·.isNone) then .ok []
  else match candidates.filterMap id with
    | [] => .error .panic
    | first :: others => .ok (first.filter fun p => others.all (·.contains p))

/-- `char::is_ascii_alphanumeric`. -/
def isAsciiAlnum (c : Char) : Bool :=
  ('0' ≤ c && c ≤ '9') || ('A' ≤ c && c ≤ 'Z') || ('a' ≤ c && c ≤ 'z')

/-- `char::is_ascii_graphic`. -/
def isAsciiGraphic (c : Char) : Bool := '!' ≤ c && c ≤ '~'

/-- `str::trim`, for a given notion of white space (`char::is_whitespace`). -/
def trimText (ws : Char → Bool) (s : Text) : Text := ((s.dropWhile ws).reverse.dropWhile ws).reverse

/-- `split_once(':')`. -/
def splitOnce (sep : Char) : Text → Option (Text × Text)
  | [] => none
  | c :: cs => if c = sep then some ([], cs) else (splitOnce sep cs).map fun (a, b) => (c :: a, b)

/-- metadata.rs:44-54: the key and value a line declares. -/
def metaLine (ws : Char → Bool) (line : Text) : Option (Text × Text) :=
  match line with
  | '#' :: '+' :: rest =>
    match splitOnce ':' rest with
    | none => none
    | some (key, value) =>
      let k := trimText ws key
      let v := trimText ws value
      if !k.isEmpty && !v.isEmpty && k.all isAsciiAlnum && v.all isAsciiGraphic then some (k, v) else none
  | _ => none

/-- metadata.rs:34-66 `index`, for the files (path, lines) found in the search path in this order; files that cannot be read
are left out by the caller of this function. -/
def buildIndex (ws : Char → Bool) (files : List (Text × List Text)) : Index :=
  files.foldl (fun index f => f.2.foldl (fun index line => match metaLine ws line with
    | some key => index.add key f.1
    | none => index) index) []

end Louis
