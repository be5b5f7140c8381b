import Verif.Model.Trie
import Verif.Model.Multipass
import Verif.Model.MatchPattern

/-!
# Model of `src/translator/table/primary.rs`: the main translation stage

The indications (`Indicators::precompute`) and position constraints (`Constrainers::precompute`) are functions of the
position here; they are modelled in their own modules.
-/

namespace Louis

open Regexp (Fault Compiled)

/-- position_constraints.rs:76-130 `PositionConstraints`: which constraints hold at a position. -/
structure Constraints where
  dontContract : Nat → Bool
  useComp6 : Nat → Bool
  uppercase : Nat → Bool
  titlecase : Nat → Bool
  preferDigit : Nat → Bool
  hyphenationBreak : Nat → Bool
  prepuncOk : Nat → Bool
  postpuncOk : Nat → Bool

/-- Unicode case mappings of the standard library (`char::to_lowercase`, `str::to_uppercase`, `char::to_uppercase`):
arbitrary functions in this model. -/
structure Case where
  lower : Char → List Char
  upperStr : Text → Text
  upperChar : Char → Text

/-- primary.rs:115-143 `struct PrimaryTable` (without the indicators and constrainers). -/
structure PrimaryTable where
  undefined : Option Text
  charTrans : List (Char × Resolved)
  direction : Direction
  fallbackDefs : List (Char × Text)
  trie : Trie
  comp6 : Trie
  nocross : Trie
  matchPats : List (Compiled Translation)
  contextPats : List (Compiled Translation)
  digitOverrides : List (Char × Resolved)

/-- `HashMap::get` on an association list whose first binding of a key counts. -/
def assoc {α : Type} (c : Char) (l : List (Char × α)) : Option α := (l.find? (·.1 == c)).map (·.2)

/-! ## Building the table -/

/-- The effect on the builder of one rule of the table (primary.rs:477-1309).  One rule may give several. -/
inductive PrimOp where
  /-- `insert_character` (primary.rs:208-236) -/
  | char (c : Char) (dots : Text) (prec : Prec) (origin : Origin)
  /-- `get_trie_mut(rule).insert(…)` (primary.rs:200-206), `insert_backward_indicator` (primary.rs:242-254) -/
  | rule (nocross : Bool) (r : TrieRule)
  /-- `comp6_trie.insert(…)` (primary.rs:802) -/
  | comp6 (r : TrieRule)
  /-- `match_patterns.insert(…)` (primary.rs:1283) -/
  | matchRule (pre : List Pattern) (chars : Text) (post : List Pattern) (to : Text) (origin : Origin)
  /-- `context_patterns.insert(…)` (primary.rs:1293) -/
  | context (test : List TestInstr) (action : List ActionInstr) (origin : Origin)
  /-- `builder.undefined = …` (primary.rs:503) -/
  | undefined (dots : Text)
  /-- `register_backward_digit_override` (primary.rs:290-311) when it applies -/
  | digitOverride (cell : Char) (character : Char) (origin : Origin)

/-- The context the builder works in: character classes, the classes the tries use, swap classes, and character
definitions. -/
structure PrimCtx where
  classes : CharClasses
  trieClasses : CharClasses
  swaps : SwapClasses
  defs : List (Char × Text)

/-- The state of `PrimaryTableBuilder` before any rule (primary.rs:175-198). -/
def PrimaryTable.new (d : Direction) (ctx : PrimCtx) : PrimaryTable :=
  ⟨none, [], d, ctx.defs, Trie.empty, Trie.empty, Trie.empty, [], [], []⟩

def orPanic {α : Type} : Option α → Except CompileErr α
  | some a => .ok a
  | none => .error .panic

/-- One builder operation.  primary.rs:99-107: the first translation of a character is kept
(`CharacterTranslation::insert`); a later digit override replaces an earlier one (`HashMap::insert`). -/
def PrimaryTable.apply (ctx : PrimCtx) (t : PrimaryTable) : PrimOp → Except CompileErr PrimaryTable
  | .char c dots prec origin =>
    match t.direction with
    | .forward => .ok { t with charTrans := t.charTrans ++ [(c, Resolved.new [c] dots 1 .main (some origin))] }
    | .backward =>
      match orPanic (t.trie.insert ctx.trieClasses t.direction ⟨[c], dots, none, none, [], prec, .main, origin⟩) with
      | .error e => .error e
      | .ok trie => .ok { t with trie }
  | .rule false r =>
    match orPanic (t.trie.insert ctx.trieClasses t.direction r) with
    | .error e => .error e
    | .ok trie => .ok { t with trie }
  | .rule true r =>
    match orPanic (t.nocross.insert ctx.trieClasses t.direction r) with
    | .error e => .error e
    | .ok nocross => .ok { t with nocross }
  | .comp6 r =>
    match orPanic (t.comp6.insert ctx.trieClasses t.direction r) with
    | .error e => .error e
    | .ok comp6 => .ok { t with comp6 }
  | .matchRule pre chars post to origin =>
    match orPanic (compileMatch ctx.classes pre chars post to origin) with
    | .error e => .error e
    | .ok p => .ok { t with matchPats := t.matchPats ++ [p] }
  | .context test action origin =>
    match compilePattern ctx.classes ctx.swaps .main .default origin test action with
    | .error e => .error e
    | .ok p => .ok { t with contextPats := t.contextPats ++ [p] }
  | .undefined dots => .ok { t with undefined := some dots }
  | .digitOverride cell character origin =>
    .ok { t with digitOverrides := (cell, Resolved.new [cell] [character] 1 .main (some origin)) :: t.digitOverrides }

/-- Building the table from all operations. -/
def PrimaryTable.applyAll (ctx : PrimCtx) : List PrimOp → PrimaryTable → Except CompileErr PrimaryTable
  | [], t => .ok t
  | op :: ops, t => match t.apply ctx op with
    | .error e => .error e
    | .ok t => PrimaryTable.applyAll ctx ops t

/-! ## Undefined characters -/

/-- The digits of a number in base 16, most significant first (at least one). -/
def hexDigits (n : Nat) : Text := Nat.toDigits 16 n

/-- primary.rs:1693-1696: the characters of `\xHH…` (`escape_unicode` prints lowercase hexadecimal digits without padding). -/
def escapeChar (c : Char) : Text := '\\' :: 'x' :: hexDigits c.toNat

/-- braille.rs:197-248 `fallback`: the North American computer braille code of the characters that can occur in an escape;
any other character is a panic.  (Sic: the table gives `3` and `9` the same cell.) -/
def fallbackCell : Char → Option Char
  | '0' => some '⠴' | '1' => some '⠂' | '2' => some '⠆' | '3' => some '⠒' | '4' => some '⠲' | '5' => some '⠢'
  | '6' => some '⠖' | '7' => some '⠶' | '8' => some '⠦' | '9' => some '⠒'
  | 'a' => some '⠁' | 'b' => some '⠃' | 'c' => some '⠉' | 'd' => some '⠙' | 'e' => some '⠑' | 'f' => some '⠋'
  | '\\' => some '⠳' | 'x' => some '⠭'
  | _ => none

/-- primary.rs:1697-1705. -/
def escapeCells (defs : List (Char × Text)) : Text → Except Fault Text
  | [] => .ok []
  | c :: cs =>
    match escapeCells defs cs with
    | .error e => .error e
    | .ok rest =>
      match assoc c defs with
      | some t => .ok (t ++ rest)
      | none => match fallbackCell c with
        | some cell => .ok (cell :: rest)
        | none => .error .panic

/-- primary.rs:1692-1706 `handle_undefined_char`. -/
def handleUndefined (t : PrimaryTable) (c : Char) : Except Fault Text := escapeCells t.fallbackDefs (escapeChar c)

/-! ## Translating -/

/-- The local variables of `trace` (primary.rs:1482-1502); `rest` is the remaining input. -/
structure PState where
  rest : Text
  pos : Nat
  prev : Option Char
  env : Env
  delayed : List Resolved
  seen : List Subset
  lastInd : Option Nat
  out : List Resolved

def PState.init (input : Text) : PState := ⟨input, 0, none, Env.new, [], [], none, []⟩

/-- primary.rs:1550-1554: `prepunc`/`postpunc` candidates are gated by the position constraints. -/
def punctOk (cons : Constraints) (pos : Nat) (t : Resolved) : Bool :=
  match t.origin with
  | some ⟨.prepunc, _⟩ => cons.prepuncOk pos
  | some ⟨.postpunc, _⟩ => cons.postpuncOk pos
  | _ => true

/-- primary.rs:1434-1449 `nocross_candidates`, followed by `max_by_key` (primary.rs:1514-1518). -/
def nocrossCandidate (t : PrimaryTable) (cs : Case) (cons : Constraints) (s : PState) : Option Resolved :=
  heaviest ((t.nocross.find cs.lower s.rest s.prev).filter fun c =>
    !(List.range' s.pos (c.length - 1)).any cons.hyphenationBreak)

/-- primary.rs:1556-1568: the backward digit override. -/
def preferDigit (t : PrimaryTable) (cons : Constraints) (s : PState) (candidates : List Resolved) : List Resolved :=
  if t.direction = .backward && cons.preferDigit s.pos then
    match s.rest with
    | [] => candidates
    | c :: _ => match assoc c t.digitOverrides with
      | none => candidates
      | some d => candidates.filter (·.length != 1) ++ [d]
  else candidates

/-- primary.rs:1545-1580: gating, digit override, `dont_contract` and computer braille. -/
def selectCandidates (t : PrimaryTable) (cs : Case) (cons : Constraints) (s : PState) (candidates : List Resolved) :
    List Resolved :=
  let candidates := candidates.filter (punctOk cons s.pos)
  let candidates := preferDigit t cons s candidates
  let candidates := if cons.dontContract s.pos then candidates.filter (·.length ≤ 1) else candidates
  if cons.useComp6 s.pos then t.comp6.find cs.lower s.rest s.prev else candidates

/-- primary.rs:1582-1606 `uppercase_if_needed`. -/
def capitalise (t : PrimaryTable) (cs : Case) (cons : Constraints) (pos : Nat) (r : Resolved) : Resolved :=
  if t.direction = .backward && cons.uppercase pos then { r with output := cs.upperStr r.output }
  else if t.direction = .backward && cons.titlecase pos then
    { r with output := match r.output with
      | [] => []
      | c :: rest => cs.upperChar c ++ rest }
  else r

/-- primary.rs:1652-1681: what happens to a character no candidate applies to. -/
def plainTranslation (t : PrimaryTable) (c : Char) : Except Fault Resolved :=
  match assoc c t.charTrans with
  | some r => .ok r
  | none => match t.undefined with
    | some replacement => .ok (Resolved.new [c] replacement 1 .main none)
    | none => match handleUndefined t c with
      | .error e => .error e
      | .ok dots => .ok (Resolved.new [c] dots 1 .main none)

/-- The pieces of one iteration before a choice is made (primary.rs:1510-1580): candidates and what stays delayed. -/
def gather (t : PrimaryTable) (cs : Case) (cons : Constraints) (input : Text) (s : PState) :
    Except Fault (List Resolved × List Resolved) :=
  let atStart := Regexp.utf8Len s.rest == Regexp.utf8Len input
  let tr := t.trie.find cs.lower s.rest s.prev
  match patternsFind t.matchPats cs.lower s.rest Env.new atStart with
  | .error e => .error e
  | .ok ms =>
    match patternsFind t.contextPats cs.lower s.rest s.env atStart with
    | .error e => .error e
    | .ok xs =>
      let delayed := s.delayed ++ tr.filter (·.offset != 0) ++ ms.filter (·.offset != 0) ++ xs.filter (·.offset != 0)
      let candidates := tr.filter (·.offset == 0) ++ ms.filter (·.offset == 0) ++ xs.filter (·.offset == 0) ++
        delayed.filter (·.offset == 0)
      .ok (selectCandidates t cs cons s candidates, delayed.filter (·.offset != 0))

/-- primary.rs:1504-1688, one iteration of the loop; `none` is `break`, with the final translations. -/
def pStep (t : PrimaryTable) (cs : Case) (cons : Constraints) (ind : Nat → List Resolved) (input : Text) (s : PState) :
    Except Fault (PState ⊕ List Resolved) :=
  let out := if s.lastInd = some s.pos then s.out else s.out ++ ind s.pos
  let nocross := nocrossCandidate t cs cons s
  match gather t cs cons input s with
  | .error e => .error e
  | .ok (candidates, delayed) =>
    let candidate := heaviest (candidates.filter fun c => !s.seen.contains c.subset)
    match (match nocross, candidate with
      | some n, some c => if n.weight ≥ c.weight then some n else none
      | some n, none => some n
      | none, _ => none) with
    | some n =>
      if n.length = 0 then .error .panic
      else
        .ok (.inl { s with
          rest := s.rest.drop n.length
          prev := n.input.getLast?
          pos := s.pos + n.length
          delayed := updateOffsets delayed n.length
          lastInd := some s.pos
          out := out ++ [capitalise t cs cons s.pos n] })
    | none =>
      match candidate with
      | some c =>
        match s.env.applyAll c.effects with
        | .error e => .error e
        | .ok env =>
          .ok (.inl {
            rest := if c.length = 0 then s.rest else s.rest.drop c.length
            pos := if c.length = 0 then s.pos else s.pos + c.length
            prev := if c.length = 0 then s.prev else c.input.getLast?
            env
            delayed := updateOffsets delayed c.length
            seen := if c.length = 0 then c.subset :: s.seen else []
            lastInd := some s.pos
            out := out ++ [capitalise t cs cons s.pos c] })
      | none =>
        match s.rest with
        | [] => .ok (.inr out)
        | c :: rest =>
          match plainTranslation t c with
          | .error e => .error e
          | .ok r =>
            .ok (.inl { s with
              rest
              prev := some c
              pos := s.pos + 1
              delayed := updateOffsets delayed 1
              lastInd := some s.pos
              out := out ++ [r] })

/-- primary.rs:1504-1690, the loop.  The Rust loop has no fuel: `C09` shows that enough fuel always exists. -/
def pLoop (t : PrimaryTable) (cs : Case) (cons : Constraints) (ind : Nat → List Resolved) (input : Text) :
    Nat → PState → Except Fault (List Resolved)
  | 0, _ => .error .outOfFuel
  | fuel + 1, s =>
    match pStep t cs cons ind input s with
    | .error e => .error e
    | .ok (.inr out) => .ok out
    | .ok (.inl s') => pLoop t cs cons ind input fuel s'

/-- The loop of `trace` returns `ts`. -/
def PrimaryTable.Traces (t : PrimaryTable) (cs : Case) (cons : Constraints) (ind : Nat → List Resolved) (input : Text)
    (ts : List Resolved) : Prop := ∃ fuel, pLoop t cs cons ind input fuel (PState.init input) = .ok ts

end Louis
