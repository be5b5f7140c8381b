import Verif.Model.Check

/-!
# How rules and traces are shown (`impl Display` in src/parser.rs and below it, `print_trace` in src/main.rs)

Sets of attributes and of characters are hash sets in the code and are shown in the order of their iteration: the parameter `ord`
rearranges their lists, and the theorems hold for every `ord`.
A translation carries the rule it comes from; in this model it carries the number of the rule (`Origin`), so that showing it looks
the rule up among the rules of the table.
The layout of the printed table (crate `tabled`) is not modelled: a trace is shown as the list of its rows.
-/

namespace Louis

open Regexp (Fault)

/-- The orders in which the hash sets are iterated over. -/
structure Orders where
  attrs : List Attr → List Attr
  chars : List Char → List Char

/-- parser.rs:800-… `write!(f, "{} {}", …)`: pieces with blanks between them. -/
def spaced : List Text → Text
  | [] => []
  | [w] => w
  | w :: ws => w ++ ' ' :: spaced ws

/-- One after the other, unless one of them panics. -/
def shownAll {α : Type} (f : α → Except Fault Text) : List α → Except Fault Text
  | [] => .ok []
  | a :: as => match f a with
    | .error e => .error e
    | .ok t => match shownAll f as with
      | .error e => .error e
      | .ok u => .ok (t ++ u)

/-- multipass/test.rs:487-516 `impl Display for Attribute`; `todo!()` for an order that is not 1 to 4. -/
def Attr.shown : Attr → Except Fault Text
  | .cls .space => .ok ['s']
  | .cls .digit => .ok ['d']
  | .cls .litdigit => .ok ['D']
  | .cls .letter => .ok ['l']
  | .cls .uppercase => .ok ['U']
  | .cls .lowercase => .ok ['u']
  | .cls .punctuation => .ok ['p']
  | .cls .sign => .ok ['S']
  | .cls .math => .ok ['m']
  | .cls .seqdelimiter => .ok ['~']
  | .cls .seqbeforechars => .ok ['<']
  | .cls .seqafterchars => .ok ['>']
  | .cls (.user name) => .ok name
  | .byOrder 1 => .ok ['w']
  | .byOrder 2 => .ok ['x']
  | .byOrder 3 => .ok ['y']
  | .byOrder 4 => .ok ['z']
  | .byOrder _ => .error .panic
  | .any => .ok ['a']
  | .boundary => .ok ['^']

/-- multipass/test.rs:518-529 `impl Display for Operator`. -/
def Operator.shown : Operator → Text
  | .eq => ['=']
  | .gt => ['>']
  | .lt => ['<']
  | .gtEq => ['>', '=']
  | .ltEq => ['<', '=']

/-- A number in decimal (`Display` of an integer). -/
def shownNat (n : Nat) : Text := Nat.toDigits 10 n

/-- multipass/test.rs:531-539 `impl Display for Quantifier`. -/
def Quantifier.shown : Quantifier → Text
  | .number n => shownNat n
  | .range a b => shownNat a ++ '-' :: shownNat b
  | .oneOrMore => ['.']

/-- The quantifier, if there is one (test.rs:561-563, 568-570). -/
def shownQuantifier (q : Option Quantifier) : Text := (q.map (·.shown)).getD []

mutual
/-- multipass/test.rs:541-586 `impl Display for TestInstruction`. -/
def TestInstr.shown (ord : Orders) : TestInstr → Except Fault Text
  | .lookback n => .ok ('_' :: shownNat n)
  | .varTest v op n => .ok ('#' :: shownNat v ++ (op.shown ++ shownNat n))
  | .string s => .ok ('"' :: s ++ ['"'])
  | .dots s => .ok ('@' :: s)
  | .attributes as q => match shownAll Attr.shown (ord.attrs as) with
    | .error e => .error e
    | .ok t => .ok ('$' :: t ++ shownQuantifier q)
  | .cls name q => .ok ('%' :: name ++ shownQuantifier q)
  | .negate t => match TestInstr.shown ord t with
    | .error e => .error e
    | .ok t => .ok ('!' :: t)
  | .replace ts => match testsShown ord ts with
    | .error e => .error e
    | .ok t => .ok ('[' :: t ++ [']'])
  | .atBeginning => .ok ['`']
  | .atEnd => .ok ['~']
/-- multipass/test.rs:478-485 `impl Display for Test`. -/
def testsShown (ord : Orders) : List TestInstr → Except Fault Text
  | [] => .ok []
  | t :: ts => match TestInstr.shown ord t with
    | .error e => .error e
    | .ok u => match testsShown ord ts with
      | .error e => .error e
      | .ok v => .ok (u ++ v)
end

/-- multipass/action.rs:323-338 `impl Display for ActionInstruction`. -/
def ActionInstr.shown : ActionInstr → Text
  | .string s => s
  | .dots s => s
  | .replace => ['*']
  | .ignore => ['?']
  | .swapClass name => '%' :: name
  | .assignment v n => '#' :: shownNat v ++ ('=' :: shownNat n)
  | .increment v => '#' :: shownNat v ++ ['+']
  | .decrement v => '#' :: shownNat v ++ ['-']

mutual
/-- match_rule.rs:80-118 `impl Display for Pattern`. -/
def Pattern.shown (ord : Orders) : Pattern → Except Fault Text
  | .empty => .ok ['-']
  | .characters s => .ok s
  | .boundary .pre => .ok ['^']
  | .boundary .post => .ok ['$']
  | .any => .ok ['.']
  | .set cs => .ok ('[' :: ord.chars cs ++ [']'])
  | .attributes as => shownAll Attr.shown (ord.attrs as)
  | .attributesOrBoundary as side => match shownAll Attr.shown (ord.attrs as) with
    | .error e => .error e
    | .ok t => .ok (t ++ [match side with | .pre => '^' | .post => '$'])
  | .group ps => match patternsShown ord ps with
    | .error e => .error e
    | .ok t => .ok ('(' :: t ++ [')'])
  | .negate p => match Pattern.shown ord p with
    | .error e => .error e
    | .ok t => .ok ('!' :: t)
  | .optional p => match Pattern.shown ord p with
    | .error e => .error e
    | .ok t => .ok (t ++ ['?'])
  | .zeroOrMore p => match Pattern.shown ord p with
    | .error e => .error e
    | .ok t => .ok (t ++ ['*'])
  | .oneOrMore p => match Pattern.shown ord p with
    | .error e => .error e
    | .ok t => .ok (t ++ ['+'])
  | .either l r => match patternsShown ord l with
    | .error e => .error e
    | .ok t => match patternsShown ord r with
      | .error e => .error e
      | .ok u => .ok (t ++ '|' :: u)
/-- match_rule.rs:71-78 `impl Display for Patterns`. -/
def patternsShown (ord : Orders) : List Pattern → Except Fault Text
  | [] => .ok []
  | p :: ps => match Pattern.shown ord p with
    | .error e => .error e
    | .ok t => match patternsShown ord ps with
      | .error e => .error e
      | .ok u => .ok (t ++ u)
end

/-- The words of parser.rs:801-820, 828-852, 898-900 for the opcodes that define a character. -/
def CharKind.shown : CharKind → Text
  | .space => "space".toList
  | .punctuation => "punctuation".toList
  | .digit => "digit".toList
  | .letter => "letter".toList
  | .lowercase => "lowercase".toList
  | .uppercase => "uppercase".toList
  | .litdigit => "litdigit".toList
  | .sign => "sign".toList
  | .math => "math".toList
  | .hyphen => "hyphen".toList

/-- The words of parser.rs:860-871, 885-886 for the opcodes that translate characters. -/
def TextKind.shown : TextKind → Text
  | .always => "always".toList
  | .word => "word".toList
  | .begword => "begword".toList
  | .begmidword => "begmidword".toList
  | .midword => "midword".toList
  | .midendword => "midendword".toList
  | .endword => "endword".toList
  | .partword => "partword".toList
  | .sufword => "sufword".toList
  | .prfword => "prfword".toList

/-- The words of parser.rs:884-890 for the opcodes with a test and an action. -/
def PassKind.shown : PassKind → Text
  | .correct => "correct".toList
  | .context => "context".toList
  | .pass2 => "pass2".toList
  | .pass3 => "pass3".toList
  | .pass4 => "pass4".toList

/-- parser.rs:797-911 `impl Display for Rule`.  The last arm is `_ => todo!()`.  (Of the opcodes grouped as `other`, `literal` is
shown; it is never the origin of a translation.) -/
def Rule.shown (ord : Orders) : Rule → Except Fault Text
  | .undefined dots => .ok (spaced ["undefined".toList, dots.toText])
  | .charDef k c dots _ => .ok (spaced [k.shown, [c], dots.toText])
  | .base name derived b => .ok (spaced ["base".toList, name, [derived], [b]])
  | .letsign dots => .ok (spaced ["letsign".toList, dots.toText])
  | .noletsign chars => .ok (spaced ["noletsign".toList, chars])
  | .nocontractsign dots _ => .ok (spaced ["nocontractsign".toList, dots.toText])
  | .numsign dots => .ok (spaced ["numsign".toList, dots.toText])
  | .nonumsign dots _ => .ok (spaced ["nonumsign".toList, dots.toText])
  | .compbrl chars _ => .ok (spaced ["compbrl".toList, chars])
  | .comp6 chars dots => .ok (spaced ["comp6".toList, chars, dots.toText])
  | .text k chars dots _ _ => .ok (spaced [k.shown, chars, dots.toText])
  | .largesign chars dots => .ok (spaced ["largesign".toList, chars, dots.toText])
  | .contraction chars => .ok (spaced ["contraction".toList, chars])
  | .begnum chars dots _ => .ok (spaced ["begnum".toList, chars, dots.toText])
  | .midnum chars dots _ => .ok (spaced ["midnum".toList, chars, dots.toText])
  | .endnum chars dots _ => .ok (spaced ["endnum".toList, chars, dots.toText])
  | .capsletter dots _ => .ok (spaced ["capsletter".toList, dots.toText])
  | .begcapsword dots _ => .ok (spaced ["begcapsword".toList, dots.toText])
  | .endcapsword dots _ => .ok (spaced ["endcapsword".toList, dots.toText])
  | .begcaps dots => .ok (spaced ["begcaps".toList, dots.toText])
  | .endcaps dots => .ok (spaced ["endcaps".toList, dots.toText])
  | .pass k test action _ => match testsShown ord test with
    | .error e => .error e
    | .ok t => .ok (spaced [k.shown, t, action.flatMap (·.shown)])
  | .attribute name chars => .ok (spaced ["attribute".toList, name, chars])
  | .prepunc chars dots _ => .ok (spaced ["prepunc".toList, chars, dots.toText])
  | .postpunc chars dots _ => .ok (spaced ["postpunc".toList, chars, dots.toText])
  | .decpoint c dots => .ok (spaced ["decpoint".toList, [c], dots.toText])
  | .matchRule pre chars post dots _ => match patternsShown ord pre with
    | .error e => .error e
    | .ok t => match patternsShown ord post with
      | .error e => .error e
      | .ok u => .ok (spaced ["match".toList, t, chars, u, dots.toText])
  | _ => .error .panic

/-- translation.rs:26-36 `impl Display for TranslationStage`. -/
def Stage.shown : Stage → Text
  | .pre => "Pre".toList
  | .main => "Main".toList
  | .post1 => "Pass2".toList
  | .post2 => "Pass3".toList
  | .post3 => "Pass4".toList

/-- main.rs:134-142 `struct Trace`: a row of the trace. -/
structure TraceRow where
  number : Nat
  «from» : Text
  to : Text
  rule : Text
  stage : Text
  deriving Repr, DecidableEq

/-- main.rs:145-152 `display_origin`. -/
def shownOrigin (ord : Orders) (rules : List Anchored) : Option Origin → Except Fault Text
  | none => .ok []
  | some o => match rules.find? (fun r => r.origin == o) with
    | some r => r.rule.shown ord
    | none => .ok []

/-- Row by row. -/
def traceRowsOf (ord : Orders) (rules : List Anchored) : List (Nat × Resolved) → Except Fault (List TraceRow)
  | [] => .ok []
  | (n, t) :: rest => match shownOrigin ord rules t.origin with
    | .error e => .error e
    | .ok rule => match traceRowsOf ord rules rest with
      | .error e => .error e
      | .ok rows => .ok (⟨n, t.input, t.output, rule, t.stage.shown⟩ :: rows)

/-- main.rs:155-184 `print_trace`: the rows that are printed. -/
def traceRows (ord : Orders) (rules : List Anchored) (tss : List (List Resolved)) : Except Fault (List TraceRow) :=
  traceRowsOf ord rules (shownTrace tss)

end Louis
