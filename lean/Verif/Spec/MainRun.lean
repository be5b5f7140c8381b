import Verif.Spec.Stage
import Verif.Spec.Matches
import Verif.Spec.Trie
import Verif.Model.Primary

/-!
# What the main stage does, exactly

The next item of a trace as a function of the items before it.  Nothing here mentions tries, regular expressions, held
translations or the state of a loop.
-/

namespace Louis

/-- A `match` line. -/
structure MatchLine where
  pre : List Pattern
  chars : Text
  post : List Pattern
  to : Text
  origin : Origin

/-- The main stage of a table in one direction. -/
structure MainTable where
  dir : Direction
  /-- the classes of the characters before and after a piece of text -/
  neighbours : CharClasses
  /-- the classes and swaps `match` and `context` lines refer to -/
  classes : CharClasses
  swaps : SwapClasses
  /-- the pieces of text that are replaced, those that are replaced where no hyphen may stand, and those for computer braille -/
  entries : List TrieRule
  unbroken : List TrieRule
  computer : List TrieRule
  matchLines : List MatchLine
  contextLines : List PassRule
  /-- the lines for characters, what undefined characters are replaced with, and the definitions used to spell them -/
  chars : List (Char × Resolved)
  undefined : Option Text
  defs : List (Char × Text)
  /-- cells that stand for a digit after a number sign -/
  digits : List (Char × Resolved)

/-- Of entries for the same text under the same conditions the first one is kept.  (Sic: unless a later one has a precedence;
then the last of those, and it weighs less.) -/
def keptOf (d : Direction) : List TrieRule → Option Resolved
  | [] => none
  | e :: es => some <| match (es.filter (·.prec != .default)).getLast? with
    | some x => Resolved.new (x.from d) (x.to d) (x.from d).length x.stage (some x.origin)
    | none => Resolved.new (e.from d) (e.to d) (e.weight d) e.stage (some e.origin)

/-- The entries offer this replacement before the text `rest`, after the character `prev`. -/
def MainTable.Offers (T : MainTable) (lower : Char → List Char) (entries : List TrieRule) (rest : Text) (prev : Option Char)
    (o : Resolved) : Prop :=
  ∃ e ∈ entries, RuleMatches T.neighbours lower T.dir e rest prev ∧
    keptOf T.dir (entries.filter fun e' => e'.path T.neighbours T.dir = e.path T.neighbours T.dir) = some o

/-- The order in which the replacements offered before a text are looked at.  It is that of hash maps. -/
structure Listing where
  entries : Text → Option Char → List Resolved
  unbroken : Text → Option Char → List Resolved
  computer : Text → Option Char → List Resolved

/-- All that is offered is listed, and nothing else. -/
structure MainTable.Lists (T : MainTable) (lower : Char → List Char) (L : Listing) : Prop where
  entries : ∀ rest prev o, o ∈ L.entries rest prev ↔ T.Offers lower T.entries rest prev o
  unbroken : ∀ rest prev o, o ∈ L.unbroken rest prev ↔ T.Offers lower T.unbroken rest prev o
  computer : ∀ rest prev o, o ∈ L.computer rest prev ↔ T.Offers lower T.computer rest prev o

/-- What a `match` line offers to a reader of `text`. -/
def MainTable.matchOffer (T : MainTable) (lower : Char → List Char) (atStart : Bool) (text : Text) (line : MatchLine) :
    Option Resolved :=
  (matchStretch T.classes lower atStart line.pre line.chars line.post text).map fun s =>
    { input := line.chars, output := line.to, length := line.chars.length
      weight := s.before.length + s.inside.length + s.after.length, offset := s.before.length, prec := .default
      stage := .main, effects := [], origin := some line.origin }

/-- What the `match` and `context` lines offer after the items. -/
def MainTable.offers (T : MainTable) (lower : Char → List Char) (input : Text) (items : List Resolved) : List Resolved :=
  T.matchLines.filterMap (T.matchOffer lower (dealtWith items).isEmpty (input.drop (dealtWith items).length)) ++
  PassTable.offers ⟨T.classes, T.swaps, .main, T.contextLines⟩ input items

/-- How an item has come about: as a choice among the lines, as a piece of text without a hyphen, or character by character. -/
inductive Way where
  | line | unbroken | spelled
  deriving Repr, DecidableEq

structure Made where
  way : Way
  item : Resolved
  deriving Repr, DecidableEq

/-- The items themselves, as the lines write them. -/
def itemsOf (made : List Made) : List Resolved := made.map (·.item)

/-- How many characters have been dealt with. -/
def placeOf (made : List Made) : Nat := (dealtWith (itemsOf made)).length

/-- `prepunc` and `postpunc` lines are used before and after words only. -/
def allowedHere (flags : Constraints) (place : Nat) (o : Resolved) : Bool :=
  match o.origin.map Origin.kind with
  | some OriginKind.prepunc => flags.prepuncOk place
  | some OriginKind.postpunc => flags.postpuncOk place
  | _ => true

/-- After a number sign the cells of digits are digits: they are not read as anything else. -/
def MainTable.digitsFirst (T : MainTable) (flags : Constraints) (place : Nat) (rest : Text) (l : List Resolved) : List Resolved :=
  if T.dir = .backward ∧ flags.preferDigit place = true then
    match rest.head?.bind fun c => (T.digits.find? (·.1 == c)).map (·.2) with
    | some digit => l.filter (·.length != 1) ++ [digit]
    | none => l
  else l

/-- The replacements that may be used after the items. -/
def MainTable.choices (T : MainTable) (L : Listing) (lower : Char → List Char) (flags : Constraints) (input : Text)
    (made : List Made) : List Resolved :=
  let items := itemsOf made
  let place := placeOf made
  let rest := input.drop place
  let prev := (dealtWith items).getLast?
  if flags.useComp6 place then L.computer rest prev
  else
    ((T.digitsFirst flags place rest
      ((L.entries rest prev ++ (T.offers lower input items).filter (·.offset == 0) ++
        fromEarlier (T.offers lower input) items).filter (allowedHere flags place))).filter
      fun o => !flags.dontContract place || decide (o.length ≤ 1))

/-- The replacements of nothing that have been made since some text was last replaced by a choice among the lines. -/
def spentOn (made : List Made) : List Subset :=
  made.foldl (fun old m => if m.way = .line then if m.item.length = 0 then m.item.subset :: old else [] else old) []

/-- The best choice among the lines: the last of the heaviest replacements that are not spent. -/
def MainTable.best (T : MainTable) (L : Listing) (lower : Char → List Char) (flags : Constraints) (input : Text)
    (made : List Made) : Option Resolved :=
  lastHeaviest ((T.choices L lower flags input made).filter fun o => !(spentOn made).contains o.subset)

/-- The best piece of text without a hyphen. -/
def MainTable.bestUnbroken (_ : MainTable) (L : Listing) (flags : Constraints) (input : Text) (made : List Made) : Option Resolved :=
  lastHeaviest ((L.unbroken (input.drop (placeOf made)) (dealtWith (itemsOf made)).getLast?).filter fun o =>
    !(List.range (o.length - 1)).any fun i => flags.hyphenationBreak (placeOf made + i))

/-- A character by itself: as its line says, or what the table wants undefined characters to be, or its number. -/
def MainTable.spelled (T : MainTable) (c : Char) : Resolved :=
  match T.chars.find? (·.1 == c) with
  | some (_, o) => o
  | none => Resolved.new [c] (T.undefined.getD
      ((escapeChar c).flatMap fun x => (assoc x T.defs).getD (fallbackCell x).toList)) 1 .main none

/-- The next item. -/
def MainTable.next (T : MainTable) (L : Listing) (lower : Char → List Char) (flags : Constraints) (input : Text)
    (made : List Made) : Option Made :=
  match T.bestUnbroken L flags input made, T.best L lower flags input made with
  | some u, some o => some (if o.weight ≤ u.weight then ⟨.unbroken, u⟩ else ⟨.line, o⟩)
  | some u, none => some ⟨.unbroken, u⟩
  | none, some o => some ⟨.line, o⟩
  | none, none => (input.drop (placeOf made)).head?.map fun c => ⟨.spelled, T.spelled c⟩

/-- The items are what the stage makes of the text. -/
structure MainTable.Run (T : MainTable) (L : Listing) (lower : Char → List Char) (flags : Constraints) (input : Text)
    (made : List Made) : Prop where
  each : ∀ i (h : i < made.length), T.next L lower flags input (made.take i) = some made[i]
  last : T.next L lower flags input made = none

/-- An item as it is shown: backward, what a line writes is put in capitals where the text says so. -/
def MainTable.shown (T : MainTable) (cs : Case) (flags : Constraints) (place : Nat) (m : Made) : Resolved :=
  if m.way = .spelled ∨ T.dir = .forward then m.item
  else if flags.uppercase place then { m.item with output := cs.upperStr m.item.output }
  else if flags.titlecase place then
    { m.item with output := m.item.output.head?.elim [] cs.upperChar ++ m.item.output.tail }
  else m.item

/-- The trace: the items, and at each place that is reached the signs for it. -/
def MainTable.trace (T : MainTable) (cs : Case) (flags : Constraints) (signs : Nat → List Resolved) (made : List Made) :
    List Resolved :=
  ((List.range made.length).flatMap fun i =>
    (if arrived (itemsOf (made.take i)) then signs (placeOf (made.take i)) else []) ++
      (made[i]?.map (T.shown cs flags (placeOf (made.take i)))).toList) ++
  if arrived (itemsOf made) then signs (placeOf made) else []

end Louis
