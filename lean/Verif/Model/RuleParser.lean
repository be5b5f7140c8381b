import Verif.Model.Operand
import Verif.Model.Table

/-!
# Model of the rule parser (`src/parser.rs`): one line of a table, and a whole table text

A rejected line is `none`; the kinds of parse errors are not modelled, only the line they are reported for.
-/

namespace Louis

/-- parser.rs:1214-1216 `struct RuleParser`: a parser reads tokens from the front and leaves the others.  `none` is an error. -/
abbrev P (α : Type) := List Text → Option (α × List Text)

/-- Nothing is read. -/
def P.pure {α : Type} (a : α) : P α := fun ts => some (a, ts)

/-- One parser after the other (the `?` of Rust between them). -/
def P.bind {α β : Type} (p : P α) (f : α → P β) : P β := fun ts =>
  match p ts with
  | none => none
  | some (a, ts) => f a ts

instance : Monad P where
  pure := P.pure
  bind := P.bind

/-- An error. -/
def P.fail {α : Type} : P α := fun _ => none

/-- `tokens.next().ok_or(…)`. -/
def P.next : P Text
  | [] => none
  | t :: ts => some (t, ts)

/-- `tokens.next()`. -/
def P.nextOpt : P (Option Text)
  | [] => some (none, [])
  | t :: ts => some (some t, ts)

/-- `tokens.next_if_eq(&word).is_some()`. -/
def P.eat (word : Text) : P Bool
  | [] => some (false, [])
  | t :: ts => if t = word then some (true, ts) else some (false, t :: ts)

/-- Conversion of a token. -/
def P.conv {α : Type} (f : Text → Option α) : P α
  | [] => none
  | t :: ts => (f t).map fun a => (a, ts)

/-- `Err(…)?` unless the condition holds. -/
def P.require (b : Bool) : P Unit := fun ts => if b then some ((), ts) else none

/-! ## The words before the opcode -/

/-- parser.rs:1237-1248 `constraints`. -/
def pConstraints : P RuleCons := do
  let nofor ← P.eat "nofor".toList
  let noback ← if nofor then P.pure false else P.eat "noback".toList
  let nocross ← P.eat "nocross".toList
  return ⟨nofor, noback, nocross⟩

/-- parser.rs:1250-1272 `with_class` and `with_classes`.  If the class name is missing the error is swallowed by
`unwrap_or_default` (parser.rs:1639), with no token left. -/
def pWithClasses : List Text → List WithClass × List Text
  | [] => ([], [])
  | [t] => if t = "before".toList ∨ t = "after".toList then ([], []) else ([], [t])
  | t :: u :: ts =>
    if t = "before".toList then
      let r := pWithClasses ts
      (.before u :: r.1, r.2)
    else if t = "after".toList then
      let r := pWithClasses ts
      (.after u :: r.1, r.2)
    else ([], t :: u :: ts)

/-- parser.rs:1284-1302 `with_matches`; the result is only stored in a `match` rule, where no code looks at it. -/
def pWithMatches : List Text → List Text
  | [] => []
  | t :: ts => if t = "empmatchbefore".toList ∨ t = "empmatchafter".toList then pWithMatches ts else t :: ts

/-! ## Opcodes -/

/-- parser.rs:201-330 `enum Opcode`; opcodes with the same operands and treatment are grouped as in `Rule`. -/
inductive Opcode where
  | incl | undefined | display | multind | charDef (k : CharKind) | grouping | base | modeletter | capsletter
  | begmodeword | begcapsword | endcapsword | capsmodechars | begcaps | endcaps | begcapsphrase | endcapsphrase
  | lencapsphrase | letsign | noletsign | noletsignbefore | noletsignafter | nocontractsign | numsign | nonumsign
  | numericnocontchars | numericmodechars | midendnumericmodechars | begmodephrase | endmodephrase | lenmodephrase
  | seqdelimiter | seqbeforechars | seqafterchars | seqafterpattern | seqafterexpression | cls | emphclass | begemph
  | endemph | noemphchars | emphletter | begemphword | endemphword | emphmodechars | begemphphrase | endemphphrase
  | lenemphphrase | decpoint | capsnocont | compbrl | comp6 | nocont | replace | text (k : TextKind) | repeated | repword
  | rependword | largesign | syllable | joinword | lowword | contraction | exactdots | prepunc | postpunc | begnum | midnum
  | endnum | joinnum | begcomp | endcomp | attribute | swapcd | swapdd | swapcc | pass (k : PassKind) | matchRule | literal
  deriving Repr, DecidableEq

/-- parser.rs:1304-1440 `opcode`: the word of each opcode. -/
def opcodeWords : List (String × Opcode) :=
  [("include", .incl), ("undefined", .undefined), ("display", .display), ("multind", .multind), ("space", .charDef .space),
   ("punctuation", .charDef .punctuation), ("digit", .charDef .digit), ("grouping", .grouping), ("letter", .charDef .letter),
   ("base", .base), ("lowercase", .charDef .lowercase), ("uppercase", .charDef .uppercase),
   ("litdigit", .charDef .litdigit), ("sign", .charDef .sign), ("math", .charDef .math), ("modeletter", .modeletter),
   ("capsletter", .capsletter), ("begmodeword", .begmodeword), ("begcapsword", .begcapsword), ("endcapsword", .endcapsword),
   ("capsmodechars", .capsmodechars), ("begcaps", .begcaps), ("endcaps", .endcaps), ("begcapsphrase", .begcapsphrase),
   ("endcapsphrase", .endcapsphrase), ("lencapsphrase", .lencapsphrase), ("letsign", .letsign), ("noletsign", .noletsign),
   ("noletsignbefore", .noletsignbefore), ("noletsignafter", .noletsignafter), ("nocontractsign", .nocontractsign),
   ("numsign", .numsign), ("nonumsign", .nonumsign), ("numericnocontchars", .numericnocontchars),
   ("numericmodechars", .numericmodechars), ("midendnumericmodechars", .midendnumericmodechars),
   ("begmodephrase", .begmodephrase), ("endmodephrase", .endmodephrase), ("lenmodephrase", .lenmodephrase),
   ("seqdelimiter", .seqdelimiter), ("seqbeforechars", .seqbeforechars), ("seqafterchars", .seqafterchars),
   ("seqafterpattern", .seqafterpattern), ("seqafterexpression", .seqafterexpression), ("class", .cls),
   ("emphclass", .emphclass), ("begemph", .begemph), ("endemph", .endemph), ("noemphchars", .noemphchars),
   ("emphletter", .emphletter), ("begemphword", .begemphword), ("endemphword", .endemphword),
   ("emphmodechars", .emphmodechars), ("begemphphrase", .begemphphrase), ("endemphphrase", .endemphphrase),
   ("lenemphphrase", .lenemphphrase), ("decpoint", .decpoint), ("hyphen", .charDef .hyphen), ("capsnocont", .capsnocont),
   ("compbrl", .compbrl), ("comp6", .comp6), ("nocont", .nocont), ("replace", .replace), ("always", .text .always),
   ("repeated", .repeated), ("repword", .repword), ("rependword", .rependword), ("largesign", .largesign),
   ("word", .text .word), ("syllable", .syllable), ("joinword", .joinword), ("lowword", .lowword),
   ("contraction", .contraction), ("sufword", .text .sufword), ("prfword", .text .prfword), ("begword", .text .begword),
   ("begmidword", .text .begmidword), ("midword", .text .midword), ("midendword", .text .midendword),
   ("endword", .text .endword), ("partword", .text .partword), ("exactdots", .exactdots), ("prepunc", .prepunc),
   ("postpunc", .postpunc), ("begnum", .begnum), ("midnum", .midnum), ("endnum", .endnum), ("joinnum", .joinnum),
   ("begcomp", .begcomp), ("endcomp", .endcomp), ("attribute", .attribute), ("swapcd", .swapcd), ("swapdd", .swapdd),
   ("swapcc", .swapcc), ("context", .pass .context), ("pass2", .pass .pass2), ("pass3", .pass .pass3),
   ("pass4", .pass .pass4), ("correct", .pass .correct), ("match", .matchRule), ("literal", .literal)]

/-- parser.rs:1304-1440 `opcode`: unknown words are an error. -/
def opcodeOf (word : Text) : Option Opcode := (opcodeWords.find? (·.1.toList == word)).map (·.2)

/-! ## Operands -/

/-- parser.rs:1442-1453 `name`. -/
def pName : P Text := P.conv fun s => if s.all (fun c => isDigit c || isAsciiAlpha c) then some s else none

/-- parser.rs:1455-1468 `many_names`: all remaining tokens, at least two. -/
def pManyNames : P Unit := fun ts => if ts.length > 1 then some ((), []) else none

/-- parser.rs:1470-1481 `one_char`. -/
def pOneChar : P Char := P.conv fun s => match unescape .default s with
  | some [c] => some c
  | _ => none

/-- parser.rs:1483-1490 `number`. -/
def pNumber : P Int := P.conv parseInt

/-- parser.rs:1492-1495 `chars`. -/
def pChars : P Text := P.conv (unescape .default)

/-- parser.rs:1501-1506 `filename`. -/
def pFilename : P Text := P.next

/-- parser.rs:1508-1519 `position`; `true` is `before`. -/
def pPosition : P Bool := P.conv fun s =>
  if s = "before".toList then some true else if s = "after".toList then some false else none

/-- parser.rs:1521-1528 `dots`. -/
def pDots : P Braille := P.conv fun s => if s = ['='] then some .implicit else (Cells.parse s).map .explicit

/-- parser.rs:1530-1542 `explicit_dots`. -/
def pExplicitDots : P Cells := P.conv Cells.parse

/-- parser.rs:1544-1559 `many_braillechars`. -/
def pManyCells : P (List Cells) := P.conv fun s => allSome Cells.parse (splitOn ',' s)

/-- parser.rs:1561-1568 `single_braillechar`. -/
def pCell : P Cell := P.conv Cell.parse

/-- parser.rs:1571-1585 `many_braillechar`. -/
def pManyCell : P Cells := P.conv fun s =>
  allSome (fun piece => if '-' ∈ piece then none else Cell.parse piece) (splitOn ',' s)

/-- parser.rs:1587-1596 `multipass_test`. -/
def pTest : P (List TestInstr) := P.conv fun s => (parseTest s).toOption

/-- parser.rs:1598-1607 `multipass_action`. -/
def pAction : P (List ActionInstr) := P.conv fun s => (parseAction s).toOption

/-- parser.rs:1609-1621 `match_pre` and `match_post`. -/
def pMatch (side : Side) : P (List Pattern) := P.conv fun s =>
  match unescape .matchPattern s with
  | none => none
  | some s => (parseMatch side s).toOption

/-- The first argument of `fail_if_invalid_constraints` (parser.rs:1185-1198) for each opcode (parser.rs:1641-2376). -/
inductive Allowed where
  /-- `Constraints::empty()` -/
  | none
  /-- `ANY_DIRECTION` -/
  | direction
  /-- the function is not called -/
  | any
  deriving Repr, DecidableEq

def Opcode.allowed : Opcode → Allowed
  | .text .word => .direction
  | .text _ | .prepunc | .postpunc | .begnum | .midnum | .endnum | .joinnum => .any
  | .display | .multind | .charDef _ | .grouping | .modeletter | .capsletter | .begmodeword | .begcapsword | .endcapsword
  | .nocontractsign | .nonumsign | .begemph | .endemph | .begcomp | .endcomp | .compbrl | .repeated | .lowword | .pass _
  | .matchRule => .direction
  | _ => .none

/-- parser.rs:1185-1198 `fail_if_invalid_constraints`. -/
def Allowed.accepts : Allowed → RuleCons → Bool
  | .none, c => !c.nofor && !c.noback && !c.nocross
  | .direction, c => !c.nocross
  | .any, _ => true

/-- parser.rs:1641-2376, the operands of each opcode.  (Sic: `grouping` accepts constraints and drops them.) -/
def operands (op : Opcode) (cons : RuleCons) (withs : List WithClass) : P Rule :=
  match op with
  | .incl => do return .incl (← pFilename)
  | .undefined => do return .undefined (← pExplicitDots)
  | .display => do return .display (← pOneChar) (← pCell) cons
  | .multind => do let _ ← pExplicitDots; pManyNames; return .other cons
  | .charDef k => do return .charDef k (← pOneChar) (← pExplicitDots) cons
  | .grouping => do
      let _ ← pName
      let _ ← pChars
      let dots ← pManyCell
      P.require (dots.length == 2)
      return .other RuleCons.none
  | .base => do return .base (← pName) (← pOneChar) (← pOneChar)
  | .modeletter => do let _ ← pName; let _ ← pExplicitDots; return .other cons
  | .capsletter => do return .capsletter (← pExplicitDots) cons
  | .begmodeword => do let _ ← pName; let _ ← pExplicitDots; return .other cons
  | .begcapsword => do return .begcapsword (← pExplicitDots) cons
  | .endcapsword => do return .endcapsword (← pExplicitDots) cons
  | .capsmodechars => do return .capsmodechars (← pChars)
  | .begcaps => do return .begcaps (← pExplicitDots)
  | .endcaps => do return .endcaps (← pExplicitDots)
  | .begcapsphrase => do return .begcapsphrase (← pExplicitDots)
  | .endcapsphrase => do
      let before ← pPosition
      let dots ← pExplicitDots
      return .endcapsphrase dots before
  | .lencapsphrase => do return .lencapsphrase (← pNumber)
  | .letsign => do return .letsign (← pExplicitDots)
  | .noletsign => do return .noletsign (← pChars)
  | .noletsignbefore => do return .noletsignbefore (← pChars)
  | .noletsignafter => do return .noletsignafter (← pChars)
  | .nocontractsign => do return .nocontractsign (← pExplicitDots) cons
  | .numsign => do return .numsign (← pExplicitDots)
  | .nonumsign => do return .nonumsign (← pExplicitDots) cons
  | .numericnocontchars => do return .numericnocontchars (← pChars)
  | .numericmodechars => do return .numericmodechars (← pChars)
  | .midendnumericmodechars => do let _ ← pChars; return .other RuleCons.none
  | .begmodephrase => do let _ ← pName; let _ ← pExplicitDots; return .other RuleCons.none
  | .endmodephrase => do let _ ← pName; let _ ← pPosition; let _ ← pExplicitDots; return .other RuleCons.none
  | .lenmodephrase => do let _ ← pName; let _ ← pNumber; return .other RuleCons.none
  | .seqdelimiter => do return .seqdelimiter (← pChars)
  | .seqbeforechars => do return .seqbeforechars (← pChars)
  | .seqafterchars => do return .seqafterchars (← pChars)
  | .seqafterpattern => do let _ ← pChars; return .other RuleCons.none
  | .seqafterexpression => do let _ ← pChars; return .other RuleCons.none
  | .cls => do return .cls (← pName) (← pChars)
  | .emphclass => do return .emphclass (← pName)
  | .begemph => do return .begemph (← pName) (← pExplicitDots) cons
  | .endemph => do return .endemph (← pName) (← pExplicitDots) cons
  | .noemphchars => do return .noemphchars (← pName) (← pChars)
  | .emphletter => do return .emphletter (← pName) (← pExplicitDots)
  | .begemphword => do return .begemphword (← pName) (← pExplicitDots)
  | .endemphword => do return .endemphword (← pName) (← pExplicitDots)
  | .emphmodechars => do return .emphmodechars (← pName) (← pChars)
  | .begemphphrase => do return .begemphphrase (← pName) (← pExplicitDots)
  | .endemphphrase => do
      let name ← pName
      let before ← pPosition
      let dots ← pExplicitDots
      return .endemphphrase name dots before
  | .lenemphphrase => do return .lenemphphrase (← pName) (← pNumber)
  | .decpoint => do return .decpoint (← pOneChar) (← pExplicitDots)
  | .capsnocont => do return .other RuleCons.none
  | .compbrl => do return .compbrl (← pChars) cons
  | .comp6 => do return .comp6 (← pChars) (← pDots)
  | .nocont => do let _ ← pChars; return .other RuleCons.none
  | .replace => do let _ ← pChars; let _ ← P.nextOpt; return .other RuleCons.none
  | .text k => do return .text k (← pChars) (← pDots) cons withs
  | .repeated => do let _ ← pChars; let _ ← pExplicitDots; return .other cons
  | .repword => do let _ ← pChars; let _ ← pExplicitDots; return .other RuleCons.none
  | .rependword => do
      let _ ← pChars
      let dots ← pManyCells
      P.require (dots.length == 2)
      return .other RuleCons.none
  | .largesign => do return .largesign (← pChars) (← pExplicitDots)
  | .syllable => do return .syllable (← pChars) (← pDots)
  | .joinword => do return .joinword (← pChars) (← pExplicitDots)
  | .lowword => do return .lowword (← pChars) (← pExplicitDots) cons
  | .contraction => do return .contraction (← pChars)
  | .exactdots => do let _ ← pChars; return .other RuleCons.none
  | .prepunc => do return .prepunc (← pChars) (← pExplicitDots) cons
  | .postpunc => do return .postpunc (← pChars) (← pExplicitDots) cons
  | .begnum => do return .begnum (← pChars) (← pExplicitDots) cons
  | .midnum => do return .midnum (← pChars) (← pExplicitDots) cons
  | .endnum => do return .endnum (← pChars) (← pDots) cons
  | .joinnum => do let _ ← pChars; let _ ← pExplicitDots; return .other cons
  | .begcomp => do return .begcomp (← pExplicitDots) cons
  | .endcomp => do return .endcomp (← pExplicitDots) cons
  | .attribute => do return .attribute (← pName) (← pChars)
  | .swapcd => do
      let name ← pName
      let chars ← pChars
      let dots ← pManyCells
      P.require (chars.length == dots.length)
      return .swapcd name chars dots
  | .swapdd => do
      let name ← pName
      let dots ← pManyCell
      let replacement ← pManyCells
      P.require (dots.length == replacement.length)
      return .swapdd name dots replacement
  | .swapcc => do
      let name ← pName
      let chars ← pChars
      let replacement ← pChars
      P.require (chars.length == replacement.length)
      return .swapcc name chars replacement
  | .pass k => do return .pass k (← pTest) (← pAction) cons
  | .matchRule => do return .matchRule (← pMatch .pre) (← pChars) (← pMatch .post) (← pDots) cons
  | .literal => do let _ ← pChars; return .other RuleCons.none

/-- parser.rs:1637-2377 `rule`: the rule the tokens of a line stand for, and the tokens that are not read. -/
def pRule : P Rule := fun ts =>
  match pConstraints ts with
  | none => none
  | some (cons, ts) =>
    let withs := pWithClasses ts
    match pWithMatches withs.2 with
    | [] => none
    | word :: ts => match opcodeOf word with
      | none => none
      | some op => if op.allowed.accepts cons then operands op cons withs.1 ts else none

/-- `RuleParser::new(line).rule()`; tokens after the operands are not looked at. -/
def parseLine (line : Text) : Option Rule := (pRule (tokens line)).map (·.1)

/-! ## A whole table (parser.rs:2458-2487) -/

/-- parser.rs:2407-2413: the path and line number of an `AnchoredRule`. -/
structure Loc where
  path : Option Text
  line : Nat
  deriving Repr, DecidableEq

/-- `partition(Result::is_ok)` and the choice after it: all results, or else all errors. -/
def allOrErrors {ε α : Type} : List (Except ε α) → Except (List ε) (List α)
  | [] => .ok []
  | r :: rs => match r, allOrErrors rs with
    | .ok a, .ok as => .ok (a :: as)
    | .ok _, .error es => .error es
    | .error e, .ok _ => .error [e]
    | .error e, .error es => .error (e :: es)

/-- parser.rs:2458-2487 `table`: the rules with their locations, or the locations of the lines that are not accepted. -/
def parseTable (text : Text) (path : Option Text) : Except (List Loc) (List (Rule × Loc)) :=
  allOrErrors (((lines text).zipIdx.filter (fun l => isRuleLine l.1)).map fun l =>
    match parseLine l.1 with
    | some rule => .ok (rule, ⟨path, l.2 + 1⟩)
    | none => .error ⟨path, l.2 + 1⟩)

/-! ## Includes (parser.rs:2489-2577) -/

/-- What the code asks of the file system: `SearchPath::find_file`, `Path::canonicalize`, `read_to_string`. -/
structure Files where
  find : Text → Option Text
  canon : Text → Option Text
  read : Text → Option Text

/-- parser.rs:2382-2401 `enum TableError`. -/
inductive TableErr where
  | parse (loc : Loc)
  | notReadable
  | notFound (file : Text)
  | hyphenationNotFound (file : Text)
  | circular (chain : List Text)
  | tooDeep
  deriving Repr, DecidableEq

/-- `path.extension() == Some("dic")`: the last component of the path ends with `.dic` and is longer than that. -/
def isDic (file : Text) : Bool :=
  match ((splitOn '/' file).filter fun c => c != [] && c != ['.']).getLast? with
  | none => false
  | some name => decide (".dic".toList <:+ name ∧ 4 < name.length)

/-- parser.rs:2489-2492 `table_file`. -/
def tableFile (fs : Files) (path : Text) : Except (List TableErr) (List (Rule × Loc)) :=
  match fs.read path with
  | none => .error [.notReadable]
  | some text => match parseTable text (some path) with
    | .ok rules => .ok rules
    | .error locs => .error (locs.map .parse)

/-- All lists, concatenated, or else all lists of errors, concatenated (parser.rs:2566-2576). -/
def concatOrErrors {ε α : Type} (rs : List (Except (List ε) (List α))) : Except (List ε) (List α) :=
  match allOrErrors rs with
  | .ok rules => .ok rules.flatten
  | .error es => .error es.flatten

/-- parser.rs:2531-2556 `expand_include`, where `expand` is the expansion of another table. -/
def expandInclude (fs : Files) (expand : Text → Except (List TableErr) (List (Rule × Loc))) (r : Rule × Loc) :
    Except (List TableErr) (List (Rule × Loc)) :=
  match r.1 with
  | .incl file =>
    if isDic file then
      match fs.find file with
      | none => .error [.hyphenationNotFound file]
      | some path => .ok [(.includeHyphenation path, r.2)]
    else expand file
  | _ => .ok [r]

/-- parser.rs:2561-2577 `expand_includes`. -/
def expandIncludes (fs : Files) (expand : Text → Except (List TableErr) (List (Rule × Loc))) (rules : List (Rule × Loc)) :
    Except (List TableErr) (List (Rule × Loc)) :=
  concatOrErrors (rules.map (expandInclude fs expand))

/-- parser.rs:2510-2514: the file and its canonical path. -/
def expandHead (fs : Files) (file : Text) (k : Text → Text → Except (List TableErr) (List (Rule × Loc))) :
    Except (List TableErr) (List (Rule × Loc)) :=
  match fs.find file with
  | none => .error [.notFound file]
  | some path => match fs.canon path with
    | none => .error [.notReadable]
    | some canonical => k path canonical

/-- parser.rs:2505-2529 `table_expanded_with`; the first argument is `MAX_INCLUDE_DEPTH` minus the length of the chain. -/
def expandTable (fs : Files) : Nat → List Text → Text → Except (List TableErr) (List (Rule × Loc))
  | 0, _, file => expandHead fs file fun _ _ => .error [.tooDeep]
  | n + 1, chain, file => expandHead fs file fun path canonical =>
    if canonical ∈ chain then .error [.circular (chain ++ [canonical])]
    else match tableFile fs path with
      | .error es => .error es
      | .ok rules => expandIncludes fs (expandTable fs n (chain ++ [canonical])) rules

/-- parser.rs:2405: `MAX_INCLUDE_DEPTH`. -/
def maxIncludeDepth : Nat := 64

/-- parser.rs:2494-2497 `table_expanded`. -/
def tableExpanded (fs : Files) (file : Text) : Except (List TableErr) (List (Rule × Loc)) :=
  expandTable fs maxIncludeDepth [] file

/-- The rules of a table as the translator sees them; the file and line are represented by the position of the rule. -/
def anchor (rules : List (Rule × Loc)) : List Anchored := rules.zipIdx.map fun r => ⟨r.1.1, r.2⟩

end Louis
