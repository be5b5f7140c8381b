import Verif.Model.Lexer
import Verif.Model.Braille
import Verif.Model.Multipass
import Verif.Model.MatchPattern

/-!
# Model of the operand parsers: `src/parser/multipass/{test,action}.rs` and `src/parser/match_rule.rs`

The parsers work on the remaining characters.  A rejected input is `PErr.reject` (the kinds of parse errors are not
modelled).  The mutually recursive parsers carry a fuel, which the Rust code does not have; running out of it is
`PErr.fuel`, which never happens with the fuel used here (`C55_operand_parsers_total`).
-/

namespace Louis

inductive PErr where
  | reject
  | fuel
  deriving Repr, DecidableEq

/-- A failed optional result is a rejected input. -/
def orReject {α : Type} : Option α → Except PErr α
  | some a => .ok a
  | none => .error .reject

/-! ## Pieces shared by tests and actions -/

/-- braille.rs:187-189 `is_braille_dot`, or a dash. -/
def isDotOrDash (c : Char) : Bool := (Dot.ofChar c).isSome || c == '-'

/-- multipass/test.rs:247-267 and action.rs:144-164 `dots`, after the `@`: the cells as text. -/
def opDots (s : Text) : Option (Text × Text) :=
  let ds := s.takeWhile isDotOrDash
  if ds = [] then none else (Cells.parse ds).map fun cs => (cs.toText, s.dropWhile isDotOrDash)

/-- multipass/test.rs:297-309 and action.rs:194-206 `unescape_unicode`. -/
def opUnicode (len : Nat) (s : Text) : Option (Char × Text) :=
  if s.length < len then none
  else match hexNumber (s.take len) with
    | none => none
    | some v => if v.isValidChar then some (Char.ofNat v, s.drop len) else none

/-- multipass/test.rs:269-295, 311-321 and action.rs:166-192, 208-218 `string`, after the opening quote: the string and the text after
the closing quote.  An escape other than `\s`, `\"`, `\x`, `\y` stands for its backslash. -/
def opString : Nat → Text → Option (Text × Text)
  | _, [] => none
  | 0, _ => none
  | n + 1, c :: s =>
    if c = '"' then some ([], s)
    else if c ≠ '\\' then (opString n s).map fun r => (c :: r.1, r.2)
    else match s with
      | [] => none
      | 's' :: s => (opString n s).map fun r => (' ' :: r.1, r.2)
      | '"' :: s => (opString n s).map fun r => ('"' :: r.1, r.2)
      | 'x' :: s => match opUnicode 4 s with
        | none => none
        | some (c, s) => (opString n s).map fun r => (c :: r.1, r.2)
      | 'y' :: s => match opUnicode 5 s with
        | none => none
        | some (c, s) => (opString n s).map fun r => (c :: r.1, r.2)
      | s => (opString n s).map fun r => ('\\' :: r.1, r.2)

/-- Adding to a hash set. -/
def addNew {α : Type} [DecidableEq α] (l : List α) (a : α) : List α := if a ∈ l then l else l ++ [a]

/-! ## Tests (test.rs) -/

/-- test.rs:188-214 `maybe_quantifier`. -/
def opQuantifier : Text → Option (Option Quantifier × Text)
  | '.' :: s => some (some .oneOrMore, s)
  | [] => some (none, [])
  | c :: s =>
    if isDigit c then
      match asciiNumber (c :: s) with
      | none => none
      | some (min, '-' :: s) =>
        match asciiNumber s with
        | none => none
        | some (max, s) => if max ≤ min then none else some (some (.range min max), s)
      | some (n, s) => some (some (.number n), s)
    else some (none, c :: s)

/-- test.rs:149-151 `is_class_digit`. -/
def isClassDigit (c : Char) : Bool := '1'.toNat ≤ c.toNat && c.toNat ≤ '7'.toNat

/-- test.rs:216-245 `class`, after the `%`. -/
def opTestClass : Text → Option (TestInstr × Text)
  | [] => none
  | c :: s =>
    if isClassDigit c then some (.cls [c] none, s)
    else
      let name := (c :: s).takeWhile isAsciiAlpha
      if name = [] then none
      else (opQuantifier ((c :: s).dropWhile isAsciiAlpha)).map fun r => (.cls name r.1, r.2)

/-- test.rs:332-351 `attribute`; `none` exactly where `is_attribute` (test.rs:138-143) is false. -/
def testAttr : Char → Option Attr
  | 'a' => some .any
  | 'd' => some (.cls .digit) | 'D' => some (.cls .litdigit) | 'l' => some (.cls .letter) | 'm' => some (.cls .math)
  | 'p' => some (.cls .punctuation) | 'S' => some (.cls .sign) | 's' => some (.cls .space)
  | 'U' => some (.cls .uppercase) | 'u' => some (.cls .lowercase)
  | 'w' => some (.byOrder 1) | 'x' => some (.byOrder 2) | 'y' => some (.byOrder 3) | 'z' => some (.byOrder 4)
  | _ => none

/-- test.rs:353-367 `attributes`, after the `$`: the loop. -/
def opAttrsFrom (attrs : List Attr) : Text → List Attr × Text
  | [] => (attrs, [])
  | c :: s => match testAttr c with
    | some a => opAttrsFrom (addNew attrs a) s
    | none => (attrs, c :: s)

/-- test.rs:353-367 `attributes`, after the `$`. -/
def opTestAttrs (s : Text) : Option (TestInstr × Text) :=
  let r := opAttrsFrom [] s
  if r.1 = [] then none else (opQuantifier r.2).map fun q => (.attributes r.1 q.1, q.2)

/-- test.rs:323-330 `lookback`, after the `_`. -/
def opLookback (s : Text) : Option (TestInstr × Text) :=
  match s with
  | [] => some (.lookback 1, [])
  | c :: _ => if isDigit c then (asciiNumber s).map fun r => (.lookback r.1, r.2) else some (.lookback 1, s)

/-- test.rs:376-398 `operator`. -/
def opOperator : Text → Option (Operator × Text)
  | '=' :: s => some (.eq, s)
  | '<' :: '=' :: s => some (.ltEq, s)
  | '<' :: c :: s => some (.lt, c :: s)
  | '>' :: '=' :: s => some (.gtEq, s)
  | '>' :: c :: s => some (.gt, c :: s)
  | _ => none

/-- test.rs:400-409 `variable`, after the `#`. -/
def opTestVar (s : Text) : Option (TestInstr × Text) :=
  match asciiNumber s with
  | none => none
  | some (var, s) => match opOperator s with
    | none => none
    | some (op, s) => (asciiNumber s).map fun r => (.varTest var op r.1, r.2)

/-- test.rs:145-147 `is_test`. -/
def isTest (c : Char) : Bool :=
  c == '_' || c == '%' || c == '@' || c == '"' || c == '$' || c == '[' || c == '#' || c == '!' || c == '`' || c == '~'

mutual
/-- test.rs:435-450 `test`, with `replacement` (369-374), `negate` (411-423), `at_beginning` and `at_end` (425-433). -/
def opTest : Nat → Text → Except PErr (TestInstr × Text)
  | 0, _ => .error .fuel
  | _ + 1, [] => .error .reject
  | n + 1, c :: s =>
    if c = '_' then orReject (opLookback s)
    else if c = '%' then orReject (opTestClass s)
    else if c = '@' then orReject ((opDots s).map fun r => (.dots r.1, r.2))
    else if c = '"' then orReject ((opString (s.length + 1) s).map fun r => (.string r.1, r.2))
    else if c = '$' then orReject (opTestAttrs s)
    else if c = '[' then
      match opTests n s with
      | .error e => .error e
      | .ok (ts, ']' :: s) => .ok (.replace ts, s)
      | .ok _ => .error .reject
    else if c = '#' then orReject (opTestVar s)
    else if c = '!' then
      match opTest n s with
      | .error e => .error e
      | .ok (.negate _, _) => .error .reject
      | .ok (.replace _, _) => .error .reject
      | .ok (t, s) => .ok (.negate t, s)
    else if c = '`' then .ok (.atBeginning, s)
    else if c = '~' then .ok (.atEnd, s)
    else .error .reject
/-- test.rs:452-458 `many_tests`. -/
def opTests : Nat → Text → Except PErr (List TestInstr × Text)
  | 0, _ => .error .fuel
  | _ + 1, [] => .ok ([], [])
  | n + 1, c :: s =>
    if isTest c then
      match opTest n (c :: s) with
      | .error e => .error e
      | .ok (t, s) => match opTests n s with
        | .error e => .error e
        | .ok (ts, s) => .ok (t :: ts, s)
    else .ok ([], c :: s)
end

/-- test.rs:461-471 `tests`: the whole operand. -/
def parseTest (s : Text) : Except PErr (List TestInstr) :=
  match opTests (2 * s.length + 1) s with
  | .error e => .error e
  | .ok ([], _) => .error .reject
  | .ok (ts, []) => .ok ts
  | .ok _ => .error .reject

/-! ## Actions (action.rs) -/

/-- action.rs:239-256 `variable`, after the `#`.  (Sic: the `+` or `-` is not consumed.) -/
def opActionVar (s : Text) : Option (ActionInstr × Text) :=
  match asciiNumber s with
  | none => none
  | some (var, s) => match s with
    | '=' :: s => (asciiNumber s).map fun r => (.assignment var r.1, r.2)
    | '+' :: _ => some (.increment var, s)
    | '-' :: _ => some (.decrement var, s)
    | _ => none

/-- action.rs:258-274 `class`, after the `%`. -/
def opActionClass (s : Text) : Option (ActionInstr × Text) :=
  let name := s.takeWhile isAsciiAlpha
  if name = [] then none else some (.swapClass name, s.dropWhile isAsciiAlpha)

/-- action.rs:276-287 `action`. -/
def opAction : Text → Option (ActionInstr × Text)
  | '@' :: s => (opDots s).map fun r => (.dots r.1, r.2)
  | '"' :: s => (opString (s.length + 1) s).map fun r => (.string r.1, r.2)
  | '*' :: s => some (.replace, s)
  | '?' :: s => some (.ignore, s)
  | '#' :: s => opActionVar s
  | '%' :: s => opActionClass s
  | _ => none

/-- action.rs:115-117 `is_action`. -/
def isAction (c : Char) : Bool := c == '@' || c == '"' || c == '%' || c == '#' || c == '*' || c == '?'

/-- action.rs:289-293, the loop of `many_actions`. -/
def opActions : Nat → Text → Except PErr (List ActionInstr × Text)
  | 0, _ => .error .fuel
  | _ + 1, [] => .ok ([], [])
  | n + 1, c :: s =>
    if isAction c then
      match opAction (c :: s) with
      | none => .error .reject
      | some (a, s) => match opActions n s with
        | .error e => .error e
        | .ok (as, s) => .ok (a :: as, s)
    else .ok ([], c :: s)

/-- action.rs:289-302 `many_actions` and `actions`: the whole operand. -/
def parseAction (s : Text) : Except PErr (List ActionInstr) :=
  match opActions (s.length + 1) s with
  | .error e => .error e
  | .ok ([], _) => .error .reject
  | .ok (as, []) => .ok as
  | .ok _ => .error .reject

/-! ## Match patterns (match_rule.rs) -/

/-- match_rule.rs:125-127 `char_is_special`. -/
def isSpecial (c : Char) : Bool := ['.', '*', '%', '^', '$', '!', '[', ']', '(', ')', '\\', '?', '*', '+', '|'].contains c

/-- match_rule.rs:151-172 `attribute`. -/
def matchAttr : Char → Option Attr
  | '_' => some (.cls .space) | '#' => some (.cls .digit) | 'a' => some (.cls .letter) | 'u' => some (.cls .uppercase)
  | 'l' => some (.cls .lowercase) | '.' => some (.cls .punctuation) | '$' => some (.cls .sign)
  | '~' => some (.cls .seqdelimiter) | '<' => some (.cls .seqbeforechars) | '>' => some (.cls .seqafterchars)
  | '^' => some .boundary
  | c => if '0'.toNat ≤ c.toNat ∧ c.toNat ≤ '7'.toNat then some (.cls (.user [c])) else none

/-- match_rule.rs:186-214 `set`, after the `[`: the loop. -/
def pSetFrom (chars : List Char) : Text → Option (List Char × Text)
  | [] => none
  | ']' :: s => some (chars, s)
  | '\\' :: ']' :: s => pSetFrom (addNew chars ']') s
  | '\\' :: '(' :: s => pSetFrom (addNew chars '(') s
  | '\\' :: ')' :: s => pSetFrom (addNew chars ')') s
  | '\\' :: _ => none
  | c :: s => pSetFrom (addNew chars c) s

/-- match_rule.rs:219-226: the attributes in brackets, after the `[`. -/
def pAttrsFrom (attrs : List Attr) : Text → Option (List Attr × Text)
  | [] => none
  | ']' :: s => some (attrs, s)
  | c :: s => match matchAttr c with
    | none => none
    | some a => pAttrsFrom (addNew attrs a) s

/-- match_rule.rs:239-247: the boundary is taken out of the set. -/
def attrPattern (side : Side) (attrs : List Attr) : Pattern :=
  if Attr.boundary ∈ attrs then
    if attrs.filter (· != .boundary) = [] then .boundary side
    else .attributesOrBoundary (attrs.filter (· != .boundary)) side
  else .attributes attrs

/-- match_rule.rs:216-248 `attributes`, after the `%`. -/
def pAttributes (side : Side) : Text → Option (Pattern × Text)
  | '[' :: s => match pAttrsFrom [] s with
    | none => none
    | some (attrs, s) => if attrs = [] then none else some (attrPattern side attrs, s)
  | c :: s => (matchAttr c).map fun a => (attrPattern side [a], s)
  | [] => none

/-- match_rule.rs:302-312 the quantifier in `pattern_with_quantifier`. -/
def pQuantifier (p : Pattern) : Text → Pattern × Text
  | '?' :: s => (.optional p, s)
  | '*' :: s => (.zeroOrMore p, s)
  | '+' :: s => (.oneOrMore p, s)
  | s => (p, s)

mutual
/-- match_rule.rs:285-300 `inner_pattern`, with `any`, `group`, `negate`, the boundaries and `characters`. -/
def pInner (side : Side) : Nat → Text → Except PErr (Pattern × Text)
  | 0, _ => .error .fuel
  | _ + 1, [] => .error .reject
  | n + 1, c :: s =>
    if c = '.' then .ok (.any, s)
    else if c = '%' then orReject (pAttributes side s)
    else if c = '^' then .ok (.boundary side, s)
    else if c = '$' then .ok (.boundary side, s)
    else if c = '!' then
      match pQuantified side n s with
      | .error e => .error e
      | .ok (.negate _, _) => .error .reject
      | .ok (p, s) => .ok (.negate p, s)
    else if c = '[' then
      match pSetFrom [] s with
      | none => .error .reject
      | some (cs, s) => if cs = [] then .error .reject else .ok (.set cs, s)
    else if c = '(' then
      match pEither side n s with
      | .error e => .error e
      | .ok (ps, ')' :: s) => if ps.isEmpty then .error .reject else .ok (.group ps, s)
      | .ok _ => .error .reject
    else if isSpecial c then .error .reject
    else .ok (.characters ((c :: s).takeWhile (!isSpecial ·)), (c :: s).dropWhile (!isSpecial ·))
/-- match_rule.rs:302-312 `pattern_with_quantifier`. -/
def pQuantified (side : Side) : Nat → Text → Except PErr (Pattern × Text)
  | 0, _ => .error .fuel
  | n + 1, s => match pInner side n s with
    | .error e => .error e
    | .ok (p, s) => .ok (pQuantifier p s)
/-- match_rule.rs:315-321 `sequence`. -/
def pSequence (side : Side) : Nat → Text → Except PErr (List Pattern × Text)
  | 0, _ => .error .fuel
  | _ + 1, [] => .ok ([], [])
  | n + 1, c :: s =>
    if c = '|' ∨ c = ')' then .ok ([], c :: s)
    else match pQuantified side n (c :: s) with
      | .error e => .error e
      | .ok (p, s) => match pSequence side n s with
        | .error e => .error e
        | .ok (ps, s) => .ok (p :: ps, s)
/-- match_rule.rs:326-339 `either`. -/
def pEither (side : Side) : Nat → Text → Except PErr (List Pattern × Text)
  | 0, _ => .error .fuel
  | n + 1, s =>
    if s.head? = some '|' then .error .reject
    else match pSequence side n s with
      | .error e => .error e
      | .ok (left, s) => pEitherMore side n left s
/-- match_rule.rs:331-337, the loop of `either`. -/
def pEitherMore (side : Side) : Nat → List Pattern → Text → Except PErr (List Pattern × Text)
  | 0, _, _ => .error .fuel
  | _ + 1, left, [] => .ok (left, [])
  | n + 1, left, c :: s =>
    if c = '|' then
      match pSequence side n s with
      | .error e => .error e
      | .ok (right, s) => if right.isEmpty then .error .reject else pEitherMore side n [.either left right] s
    else .ok (left, c :: s)
end

/-- match_rule.rs:341-353 `pattern`: the whole operand.  (Sic: what follows a leading `-` is ignored.) -/
def parseMatch (side : Side) (s : Text) : Except PErr (List Pattern) :=
  match s with
  | '-' :: _ => .ok [.empty]
  | [] => .ok []
  | s => match pEither side (5 * s.length + 5) s with
    | .error e => .error e
    | .ok (ps, []) => .ok ps
    | .ok _ => .error .reject

end Louis
