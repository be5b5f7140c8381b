import Verif.Model.Table
import Verif.Model.Primary
import Verif.Model.Indicators

/-!
# Model of `PrimaryTable::compile` (`src/translator/table/primary.rs:411-1390`) and of the builders it uses

The builder is split in two: the tries, character translations and patterns (`PrimaryTable`, extended by `PrimOp`s) and the
signs and constrainers (`Signs`).  The order of the rules, and with it which error is reported first, is kept.
-/

namespace Louis

open Regexp (Fault)

/-- What the compilation asks of its surroundings: `char::is_alphabetic`, and the lines of a hyphenation file (`none` if
it cannot be read). -/
structure Sys where
  alpha : Char → Bool
  dic : Text → Option (List Text)

/-- `number as usize` (primary.rs:680, 720) on a 64-bit machine. -/
def asUsize (n : Int) : Nat := if n < 0 then (2 ^ 64 + n).toNat else n.toNat

/-! ## Rules that go into the tries -/

/-- primary.rs:388-409 `resolve_class_constraints`: a condition on a class without members is dropped. -/
def resolveWiths (classes : CharClasses) (withs : List WithClass) : List ClassConstraint :=
  withs.filterMap fun
    | .before cls => (classes.get (CharClass.ofName cls)).map fun _ => .stop (CharClass.ofName cls)
    | .after cls => (classes.get (CharClass.ofName cls)).map fun _ => .start (CharClass.ofName cls)

/-- The classes of a word boundary. -/
def wordEdge : List CharClass := [.space, .punctuation]

/-- primary.rs:814-1163: the boundaries (before, after) of each insertion of an opcode. -/
def TextKind.edges : TextKind → List (Option (List CharClass) × Option (List CharClass))
  | .always => [(none, none)]
  | .word => [(some wordEdge, some wordEdge)]
  | .begword => [(some wordEdge, some [.letter])]
  | .midword => [(some [.letter], some [.letter])]
  | .partword => [(some [.letter], none), (none, some [.letter])]
  | .midendword => [(some [.letter], some [.letter, .space, .punctuation])]
  | .endword => [(some [.letter], some wordEdge)]
  | .prfword => [(some wordEdge, some wordEdge), (some [.letter], some wordEdge)]
  | .sufword => [(some wordEdge, some wordEdge), (some wordEdge, some [.letter])]
  | .begmidword => [(some [.letter, .space, .punctuation], some [.letter])]

/-- One `get_trie_mut(rule).insert(…)`. -/
def Anchored.insertion (r : Anchored) (chars dots : Text) (before after : Option (List CharClass))
    (withs : List ClassConstraint) : PrimOp :=
  .rule r.rule.isNocross ⟨chars, dots, before, after, withs, r.rule.prec, .main, r.origin⟩

/-- primary.rs:242-254 `insert_backward_indicator`, guarded by primary.rs:265-279 `backward_indicator_dots_available`. -/
def Anchored.signOps (r : Anchored) (d : Direction) (letterDots : List Text) (dots : Cells) : List PrimOp :=
  if d == .backward && !letterDots.contains dots.toText then
    [.rule false ⟨[], dots.toText, none, none, [], r.rule.prec, .main, r.origin⟩]
  else []

/-- primary.rs:290-311 `register_backward_digit_override`, which is called in backward direction only. -/
def Anchored.digitOps (r : Anchored) (d : Direction) (letterDots : List Text) (c : Char) (dots : Cells) : List PrimOp :=
  match d, dots with
  | .backward, [cell] => if letterDots.contains [cell.toUnicode] then [.digitOverride cell.toUnicode c r.origin] else []
  | _, _ => []

/-- primary.rs:441-454 `litdigit_chars`. -/
def litdigitChars (d : Direction) (rules : List Anchored) : List Char :=
  match d with
  | .forward => rules.filterMap fun r => match r.rule with
    | .charDef .litdigit c _ _ => some c
    | _ => none
  | .backward => []

/-- primary.rs:462-475 `letter_dots`. -/
def letterDotsOf (d : Direction) (rules : List Anchored) : List Text :=
  match d with
  | .backward => rules.filterMap fun r => match r.rule with
    | .charDef .letter _ dots _ | .charDef .lowercase _ dots _ | .charDef .uppercase _ dots _ => some dots.toText
    | _ => none
  | .forward => []

/-- primary.rs:477-500: the first loop over the rules. -/
def Anchored.firstOps (r : Anchored) : List PrimOp :=
  match r.rule with
  | .decpoint c dots => [.char c dots.toText r.rule.prec r.origin]
  | .charDef .hyphen c dots _ => [.char c dots.toText r.rule.prec r.origin]
  | _ => []

/-- primary.rs:501-1309: what one rule adds to the tries, translations and patterns in the second loop. -/
def Anchored.ops (ctx : TableCtx) (d : Direction) (litdigits : List Char) (letterDots : List Text) (r : Anchored) :
    Except CompileErr (List PrimOp) :=
  let char (c : Char) (dots : Text) : PrimOp := .char c dots r.rule.prec r.origin
  match r.rule with
  | .undefined dots => .ok [.undefined dots.toText]
  | .charDef .hyphen _ _ _ => .ok []
  | .charDef .digit c dots _ =>
    .ok ((if litdigits.contains c then [] else [char c dots.toText]) ++ r.digitOps d letterDots c dots)
  | .charDef .litdigit c dots _ => .ok (char c dots.toText :: r.digitOps d letterDots c dots)
  | .charDef _ c dots _ => .ok [char c dots.toText]
  | .numsign dots | .nonumsign dots _ | .capsletter dots _ | .begcapsword dots _ | .endcapsword dots _ =>
    .ok (r.signOps d letterDots dots)
  | .contraction chars =>
    match ctx.defs.braille .implicit chars with
    | .error e => .error e
    | .ok dots => .ok [r.insertion chars dots (some wordEdge) (some wordEdge) []]
  | .base _ derived base =>
    match ctx.defs.get base with
    | some dots => .ok [char derived dots]
    | none => .ok []
  | .comp6 chars dots =>
    match ctx.defs.braille dots chars with
    | .error e => .error e
    | .ok dots => .ok [.comp6 ⟨chars, dots, none, none, [], r.rule.prec, .main, r.origin⟩]
  | .text k chars dots _ withs =>
    match ctx.defs.braille dots chars with
    | .error e => .error e
    | .ok dots => .ok (k.edges.map fun e => r.insertion chars dots e.1 e.2 (resolveWiths ctx.classes withs))
  | .syllable chars dots =>
    match ctx.defs.braille dots chars with
    | .error e => .error e
    | .ok dots => .ok [r.insertion chars dots none none []]
  | .largesign chars dots => .ok [r.insertion chars dots.toText none none []]
  | .joinword chars dots | .lowword chars dots _ =>
    .ok [r.insertion chars dots.toText (some wordEdge) (some wordEdge) []]
  | .begnum chars dots _ => .ok [r.insertion chars dots.toText (some wordEdge) (some [.digit]) []]
  | .midnum chars dots _ => .ok [r.insertion chars dots.toText (some [.digit]) (some [.digit]) []]
  | .endnum chars dots _ =>
    match ctx.defs.braille dots chars with
    | .error e => .error e
    | .ok dots => .ok [r.insertion chars dots (some [.digit]) none []]
  | .prepunc chars dots _ | .postpunc chars dots _ =>
    .ok (if chars.all ctx.classes.isPunctuation then [r.insertion chars dots.toText none none []] else [])
  | .matchRule pre chars post dots _ =>
    match ctx.defs.braille dots chars with
    | .error e => .error e
    | .ok dots => .ok [.matchRule pre chars post dots r.origin]
  | .pass .context test action _ => .ok [.context test action r.origin]
  | _ => .ok []

/-! ## Signs and constrainers -/

/-- The state of the indicator and constrainer builders (primary.rs:147-168). -/
structure Signs where
  begcomp : Option Resolved
  endcomp : Option Resolved
  num : NumIndicator
  letsign : Option (Text × Origin)
  contractions : List Text
  noletsign : List Char
  noletsignafter : List Char
  noletsignbefore : List Char
  caps : CapIndicator
  nocontractsign : Option (Text × Origin)
  emph : List EmphClass
  numCons : NumericChars
  capsDots : CapsDots
  numDots : NumDots
  punct : Bool
  hyphenator : Option Hyphenation
  triggers : List Text

/-- The initial state of the builders (primary.rs:175-198 and the `new` functions it calls). -/
def Signs.new : Signs where
  begcomp := none
  endcomp := none
  num := ⟨⟨[], [], []⟩, none, none, []⟩
  letsign := none
  contractions := []
  noletsign := []
  noletsignafter := []
  noletsignbefore := []
  caps := ⟨[], [], [], [], none, none, none, none, none, none, none, true, 2⟩
  nocontractsign := none
  emph := []
  numCons := ⟨[], [], []⟩
  capsDots := ⟨none, none, none, []⟩
  numDots := ⟨none, none, [], []⟩
  punct := false
  hyphenator := none
  triggers := []

/-- emphasis.rs:345-352 `class_mut`: the class is created at the end if it is new. -/
def updClass (name : Text) (f : EmphClass → EmphClass) : List EmphClass → List EmphClass
  | [] => [f (EmphClass.new name)]
  | c :: cs => if c.name = name then f c :: cs else c :: updClass name f cs

/-- emphasis.rs:354-404: an update of one emphasis class. -/
def Signs.emphasis (s : Signs) (name : Text) (f : EmphClass → EmphClass) : Signs := { s with emph := updClass name f s.emph }

/-- numeric.rs:59-61 and position_constraints.rs:493-495 `midnum`. -/
def Signs.midnum (s : Signs) (chars : Text) : Signs := { s with
  num := { s.num with chars := { s.num.chars with mid := s.num.chars.mid ++ chars } }
  numCons := { s.numCons with mid := s.numCons.mid ++ chars } }

/-- primary.rs:481-492: the decimal point in the first loop. -/
def Signs.first (s : Signs) (r : Anchored) : Signs :=
  match r.rule with
  | .decpoint c _ => s.midnum [c]
  | _ => s

/-- primary.rs:501-1309: what one rule does to the signs and constrainers in the second loop.  `avail` tells whether the
dots of a sign may be registered for backward translation. -/
def Signs.step (classes : CharClasses) (d : Direction) (letterDots : List Text) (s : Signs) (r : Anchored) : Signs :=
  let sign (dots : Cells) : Resolved := indication dots.toText r.origin
  let avail (dots : Cells) : Bool := d == .backward && !letterDots.contains dots.toText
  match r.rule with
  | .numsign dots => { s with
      num := { s.num with start := some (sign dots) }
      numDots := if avail dots then { s.numDots with numsign := some dots.toText } else s.numDots }
  | .nonumsign dots _ => { s with
      num := { s.num with stop := some (sign dots) }
      numDots := if avail dots then { s.numDots with nonumsign := some dots.toText } else s.numDots }
  | .numericnocontchars chars => { s with num := { s.num with terminating := chars } }
  | .numericmodechars chars => { s with
      num := { s.num with chars := { s.num.chars with extra := chars } }
      numCons := { s.numCons with extra := chars } }
  | .midnum chars _ _ => s.midnum chars
  | .capsletter dots _ => { s with
      caps := { s.caps with capsletter := some (sign dots) }
      capsDots := if avail dots then { s.capsDots with capsletter := some dots.toText } else s.capsDots }
  | .begcapsword dots _ => { s with
      caps := { s.caps with begcapsword := some (sign dots) }
      capsDots := if avail dots then { s.capsDots with begcapsword := some dots.toText } else s.capsDots }
  | .endcapsword dots _ => { s with
      caps := { s.caps with endcapsword := some (sign dots) }
      capsDots := if avail dots then { s.capsDots with endcapsword := some dots.toText } else s.capsDots }
  | .begcaps dots => { s with caps := { s.caps with begcaps := some (sign dots) } }
  | .endcaps dots => { s with caps := { s.caps with endcaps := some (sign dots) } }
  | .capsmodechars chars => { s with caps := { s.caps with modeChars := chars } }
  | .begcapsphrase dots => { s with caps := { s.caps with begcapsphrase := some (sign dots) } }
  | .endcapsphrase dots before => { s with
      caps := { s.caps with endcapsphrase := some (sign dots), endcapsphraseBefore := before } }
  | .lencapsphrase n => { s with caps := { s.caps with lenPhrase := asUsize n } }
  | .emphclass name => s.emphasis name id
  | .emphletter name dots => s.emphasis name fun c => { c with emphletter := some (sign dots) }
  | .begemphword name dots => s.emphasis name fun c => { c with begemphword := some (sign dots) }
  | .endemphword name dots => s.emphasis name fun c => { c with endemphword := some (sign dots) }
  | .begemphphrase name dots => s.emphasis name fun c => { c with begemphphrase := some (sign dots) }
  | .endemphphrase name dots before => s.emphasis name fun c =>
      { c with endemphphrase := some (sign dots), endemphphraseBefore := before }
  | .lenemphphrase name n => s.emphasis name fun c => { c with lenPhrase := asUsize n }
  | .begemph name dots _ => s.emphasis name fun c => { c with begemph := some (sign dots) }
  | .endemph name dots _ => s.emphasis name fun c => { c with endemph := some (sign dots) }
  | .emphmodechars name chars => s.emphasis name fun c => { c with modeChars := chars }
  | .noemphchars name chars => s.emphasis name fun c => { c with noemph := chars }
  | .letsign dots => { s with letsign := some (dots.toText, r.origin) }
  | .noletsign chars => { s with noletsign := s.noletsign ++ chars }
  | .noletsignafter chars => { s with noletsignafter := s.noletsignafter ++ chars }
  | .noletsignbefore chars => { s with noletsignbefore := s.noletsignbefore ++ chars }
  | .contraction chars => { s with contractions := s.contractions ++ [chars] }
  | .nocontractsign dots _ => { s with nocontractsign := some (dots.toText, r.origin) }
  | .begcomp dots _ => { s with begcomp := some (sign dots) }
  | .endcomp dots _ => { s with endcomp := some (sign dots) }
  | .compbrl chars _ => { s with triggers := s.triggers ++ [chars] }
  | .prepunc chars _ _ | .postpunc chars _ _ => { s with punct := s.punct || chars.all classes.isPunctuation }
  | _ => s

/-- primary.rs:1301-1306: reading a hyphenation table; the last one counts. -/
def Signs.hyphenate (sys : Sys) (s : Signs) (r : Anchored) : Except CompileErr Signs :=
  match r.rule with
  | .includeHyphenation path =>
    match sys.dic path with
    | none => .error .hyphenationTable
    | some lines => match parseDic lines with
      | .error _ => .error .hyphenationTable
      | .ok h => .ok { s with hyphenator := some h }
  | _ => .ok s

/-- The members of a class (`get(…).unwrap_or_default()`). -/
def CharClasses.members (cs : CharClasses) (k : CharClass) : List Char := (cs.get k).getD []

/-- primary.rs:1362-1370: the cells of `always` rules made of letters only. -/
def alwaysCells (alpha : Char → Bool) (rules : List Anchored) : List Char :=
  rules.flatMap fun r => match r.rule with
    | .text .always chars dots _ _ => if chars.all alpha then dots.toText else []
    | _ => []

/-- primary.rs:1310-1388: the character sets taken from the context after the loops. -/
def Signs.finish (sys : Sys) (ctx : TableCtx) (d : Direction) (rules : List Anchored) (s : Signs) : Signs :=
  let digits := ctx.classes.members .litdigit
  let letterCells := match d with
    | .backward => ctx.dots.members .letter ++ alwaysCells sys.alpha rules
    | .forward => []
  let digitCells := match d with
    | .backward => ctx.dots.members .digit ++ ctx.dots.members .litdigit
    | .forward => []
  { s with
    num := { s.num with chars := { s.num.chars with digits := digits } }
    numCons := { s.numCons with digits := digits }
    caps := { s.caps with
      upper := ctx.classes.members .uppercase
      letters := ctx.classes.members .letter
      spaces := ctx.classes.members .space }
    emph := s.emph.map fun c => { c with spaces := ctx.classes.members .space }
    capsDots := { s.capsDots with letters := letterCells }
    numDots := { s.numDots with digits := digitCells, letters := letterCells } }

/-- lettersign.rs:56-111 and nocontract.rs:46-87: the trie of the contractions. -/
def contractionTrie (ctx : TableCtx) (dots : Text) (origin : Origin) (cs : List Text) : Except CompileErr Trie :=
  orPanic (Trie.insertAll ctx.classes .forward (cs.map (contractionRule dots origin)) Trie.empty)

/-- lettersign.rs:56-111 `build`. -/
def Signs.letIndicator (ctx : TableCtx) (s : Signs) : Except CompileErr (Option LetIndicator) :=
  match s.letsign with
  | none => .ok none
  | some (dots, origin) =>
    match contractionTrie ctx dots origin s.contractions with
    | .error e => .error e
    | .ok trie => .ok (some {
        contractions := trie
        start := indication dots origin
        letters := ctx.classes.members .letter ++ ctx.classes.members .uppercase ++ ctx.classes.members .lowercase
        spaces := ctx.classes.members .space
        noletsign := s.noletsign
        after := s.noletsignafter
        before := s.noletsignbefore })

/-- nocontract.rs:46-87 `build`. -/
def Signs.nocIndicator (ctx : TableCtx) (s : Signs) : Except CompileErr (Option NocIndicator) :=
  match s.nocontractsign with
  | none => .ok none
  | some (dots, origin) =>
    if s.contractions.isEmpty then .ok none
    else match contractionTrie ctx dots origin s.contractions with
      | .error e => .error e
      | .ok trie => .ok (some ⟨trie, indication dots origin⟩)

/-- primary.rs:315-336: the indicators. -/
def Signs.indicators (ctx : TableCtx) (s : Signs) : Except CompileErr Indicators :=
  match s.letIndicator ctx with
  | .error e => .error e
  | .ok letsign =>
    match s.nocIndicator ctx with
    | .error e => .error e
    | .ok nocontract => .ok {
        comp := s.begcomp.map fun b => ⟨b, s.endcomp⟩
        emph := s.emph.filter (·.isIndicating)
        num := if s.num.start.isSome && !s.num.chars.digits.isEmpty then some s.num else none
        letsign
        caps := if s.caps.isIndicating then some s.caps else none
        nocontract }

/-- primary.rs:347-376: the constrainers. -/
def Signs.constrainers (ctx : TableCtx) (d : Direction) (s : Signs) : Constrainers where
  numeric := if s.numCons.digits.isEmpty then none else some s.numCons
  caps := if s.capsDots.capsletter.isNone && s.capsDots.begcapsword.isNone then none else some s.capsDots
  backNumeric := if s.numDots.numsign.isNone then none else some s.numDots
  hyphenation := if d == .forward then s.hyphenator.map fun h => (h, ctx.classes.members .letter) else none
  punctuation := if d == .forward && s.punct then
    some ⟨ctx.classes.members .letter, ctx.classes.members .letter ++ ctx.classes.members .digit, ctx.classes.members .space⟩
    else none

/-! ## The compiled main stage -/

/-- primary.rs:115-143 `struct PrimaryTable`, all of it. -/
structure Primary where
  table : PrimaryTable
  indicators : Indicators
  constrainers : Constrainers
  triggers : List Text
  classes : CharClasses

/-- primary.rs:417-426: the context handed to the builder. -/
def TableCtx.prim (ctx : TableCtx) (d : Direction) : PrimCtx :=
  ⟨ctx.classes, match d with | .forward => ctx.classes | .backward => ctx.dots, ctx.swaps, ctx.defs⟩

/-- The first loop (primary.rs:477-500). -/
def firstLoop (ctx : TableCtx) (d : Direction) : List Anchored → PrimaryTable × Signs →
    Except CompileErr (PrimaryTable × Signs)
  | [], s => .ok s
  | r :: rs, (t, s) =>
    match PrimaryTable.applyAll (ctx.prim d) r.firstOps t with
    | .error e => .error e
    | .ok t => firstLoop ctx d rs (t, s.first r)

/-- The second loop (primary.rs:501-1309). -/
def secondLoop (sys : Sys) (ctx : TableCtx) (d : Direction) (litdigits : List Char) (letterDots : List Text) :
    List Anchored → PrimaryTable × Signs → Except CompileErr (PrimaryTable × Signs)
  | [], s => .ok s
  | r :: rs, (t, s) =>
    match r.ops ctx d litdigits letterDots with
    | .error e => .error e
    | .ok ops =>
      match PrimaryTable.applyAll (ctx.prim d) ops t with
      | .error e => .error e
      | .ok t =>
        match (s.step ctx.classes d letterDots r).hyphenate sys r with
        | .error e => .error e
        | .ok s => secondLoop sys ctx d litdigits letterDots rs (t, s)

/-- primary.rs:411-1390 `PrimaryTable::compile`. -/
def Primary.compile (sys : Sys) (ctx : TableCtx) (d : Direction) (rules : List Anchored) : Except CompileErr Primary :=
  match firstLoop ctx d rules (PrimaryTable.new d (ctx.prim d), Signs.new) with
  | .error e => .error e
  | .ok s =>
    match secondLoop sys ctx d (litdigitChars d rules) (letterDotsOf d rules) rules s with
    | .error e => .error e
    | .ok (t, s) =>
      let s := s.finish sys ctx d rules
      match s.indicators ctx with
      | .error e => .error e
      | .ok indicators => .ok ⟨t, indicators, s.constrainers ctx d, s.triggers, ctx.classes⟩

end Louis
