import Verif.Model.Constrain

/-!
# Model of `src/translator/indication.rs` and `src/translator/indication/*.rs`

An indicator returns pairs of a position and a translation.  Indices into `chars` are always in range here (the theorems
about positions show it), so reading a character is `chars[i]?`.
-/

namespace Louis

open Regexp (Fault)

/-- `ResolvedTranslation::new("", dots, 1, Main, origin)`: numeric.rs:39-57, uppercase.rs:39-41, indication/emphasis.rs:18-20,
computer_braille.rs:12-14, lettersign.rs:65-66, nocontract.rs:50-56. -/
def indication (dots : Text) (origin : Origin) : Resolved := Resolved.new [] dots 1 .main (some origin)

/-- indication.rs:37-59 `find_spans`, as one pass over `chars[start..end)`: `pos` is the current position and `open` the
start of the span being collected.  (The three nested `while` loops are merged into one state machine.) -/
def findSpans {α : Type} (p : α → Bool) : Nat → Option Nat → List α → List (Nat × Nat)
  | _, none, [] => []
  | pos, some s, [] => [(s, pos)]
  | pos, none, c :: cs => if p c then findSpans p (pos + 1) (some pos) cs else findSpans p (pos + 1) none cs
  | pos, some s, c :: cs => if p c then findSpans p (pos + 1) (some s) cs else (s, pos) :: findSpans p (pos + 1) none cs

/-- `find_spans(chars, start, end, p)`. -/
def spansIn {α : Type} (p : α → Bool) (chars : List α) (start stop : Nat) : List (Nat × Nat) :=
  findSpans p start none ((chars.take stop).drop start)

/-- One step of insertion sort on a reversed sorted prefix: move left past the elements that are greater. -/
def insertBack {α : Type} (less : α → α → Bool) (x : α) : List α → List α
  | [] => [x]
  | y :: ys => if less x y then y :: insertBack less x ys else x :: y :: ys

/-- Stable sorting (`slice::sort_by`, `sort_by_key`).  For a total preorder every stable sort gives this result; insertion
sort is what the standard library does on short slices. -/
def stableSort {α : Type} (less : α → α → Bool) (l : List α) : List α := (l.foldl (fun acc x => insertBack less x acc) []).reverse

/-- `sort_by_key(|(pos, _)| *pos)`. -/
def sortByPos (l : List (Nat × Resolved)) : List (Nat × Resolved) := stableSort (fun a b => decide (a.1 < b.1)) l

/-! ## Computer braille (computer_braille.rs) -/

/-- computer_braille.rs:55-60. -/
structure CompIndicator where
  begcomp : Resolved
  endcomp : Option Resolved

/-- computer_braille.rs:68-93 `precompute`. -/
def CompIndicator.precompute (i : CompIndicator) (input : Text) (spans : List Span) : List (Nat × Resolved) :=
  sortByPos (spans.flatMap fun s =>
    if s.cls ≠ computerBraille then []
    else
      let stop := min s.stop input.length
      if s.start ≥ stop then []
      else (s.start, i.begcomp) :: (i.endcomp.map fun t => (stop, t)).toList)

/-! ## Numbers (numeric.rs) -/

/-- numeric.rs:77-92. -/
structure NumIndicator where
  chars : NumericChars
  start : Option Resolved
  stop : Option Resolved
  terminating : List Char

/-- numeric.rs:104-133, the loop of `precompute`. -/
def NumIndicator.loop (i : NumIndicator) : Nat → Bool → Text → List (Nat × Resolved)
  | _, _, [] => []
  | pos, inNumeric, c :: cs =>
    match i.chars.digits.contains c, inNumeric with
    | false, false => i.loop (pos + 1) false cs
    | true, false => (i.start.map fun t => (pos, t)).toList ++ i.loop (pos + 1) true cs
    | true, true => i.loop (pos + 1) true cs
    | false, true =>
      if i.chars.extra.contains c then i.loop (pos + 1) true cs
      else if i.chars.extra.isEmpty && i.chars.mid.contains c && (cs.head?).any (i.chars.digits.contains ·) then
        i.loop (pos + 1) true cs
      else
        (if i.terminating.contains c then (i.stop.map fun t => (pos, t)).toList else []) ++ i.loop (pos + 1) false cs

/-- numeric.rs:96-136 `precompute`. -/
def NumIndicator.precompute (i : NumIndicator) (input : Text) : List (Nat × Resolved) :=
  if i.start.isNone then [] else i.loop 0 false input

/-! ## Letter signs (lettersign.rs) and no-contraction signs (nocontract.rs) -/

/-- lettersign.rs:70-82, nocontract.rs:58-70: the rule inserted for a contraction. -/
def contractionRule (dots : Text) (origin : Origin) (c : Text) : TrieRule :=
  ⟨c, dots, some [.space, .punctuation], some [.space, .punctuation], [], .default, .main, origin⟩

/-- lettersign.rs:135-148. -/
structure LetIndicator where
  contractions : Trie
  start : Resolved
  letters : List Char
  spaces : List Char
  noletsign : List Char
  after : List Char
  before : List Char

/-- lettersign.rs:216-224, nocontract.rs:122-130 `next(…).is_some()`. -/
def contractionAt (t : Trie) (lower : Char → List Char) (rest : Text) (prev : Option Char) : Bool :=
  !(t.find lower rest prev).isEmpty

/-- The character before a position. -/
def prevAt (chars : Text) (i : Nat) : Option Char := if i = 0 then none else chars[i - 1]?

/-- lettersign.rs:168-190: does the isolation-based sign fire at position `i`? -/
def LetIndicator.isolated (l : LetIndicator) (chars : Text) (i : Nat) : Bool :=
  match chars[i]? with
  | none => false
  | some c =>
    let prev := prevAt chars i
    let next := chars[i + 1]?
    if !l.letters.contains c || l.noletsign.contains c then false
    else if prev.any (l.after.contains ·) then false
    else if next.any (l.before.contains ·) then false
    else !next.any (l.letters.contains ·) && !prev.any (fun p => l.spaces.contains p || l.letters.contains p)

/-- lettersign.rs:195-206: does the contraction-based sign fire at position `i`? -/
def LetIndicator.contracted (l : LetIndicator) (lower : Char → List Char) (chars : Text) (i : Nat) : Bool :=
  match chars[i]? with
  | none => false
  | some c => !l.noletsign.contains c && contractionAt l.contractions lower (chars.drop i) (prevAt chars i)

/-- lettersign.rs:152-214 `precompute`: the set of positions, sorted. -/
def LetIndicator.precompute (l : LetIndicator) (lower : Char → List Char) (input : Text) : List (Nat × Resolved) :=
  ((List.range input.length).filter fun i => l.isolated input i || l.contracted lower input i).map fun i => (i, l.start)

/-- nocontract.rs:99-102. -/
structure NocIndicator where
  contractions : Trie
  start : Resolved

/-- nocontract.rs:106-120 `precompute`. -/
def NocIndicator.precompute (l : NocIndicator) (lower : Char → List Char) (input : Text) : List (Nat × Resolved) :=
  ((List.range input.length).filter fun i => contractionAt l.contractions lower (input.drop i) (prevAt input i)).map
    fun i => (i, l.start)

/-! ## Capitals (uppercase.rs) -/

/-- uppercase.rs:157-171 `struct Indicator`. -/
structure CapIndicator where
  upper : List Char
  modeChars : List Char
  letters : List Char
  spaces : List Char
  capsletter : Option Resolved
  begcapsword : Option Resolved
  endcapsword : Option Resolved
  begcaps : Option Resolved
  endcaps : Option Resolved
  begcapsphrase : Option Resolved
  endcapsphrase : Option Resolved
  endcapsphraseBefore : Bool
  lenPhrase : Nat

/-- uppercase.rs:174-179. -/
def CapIndicator.isIndicating (x : CapIndicator) : Bool :=
  x.capsletter.isSome || x.begcapsword.isSome || x.begcaps.isSome || x.begcapsphrase.isSome

/-- uppercase.rs:181-183 on a position. -/
def CapIndicator.letterAt (x : CapIndicator) (chars : Text) (i : Nat) : Bool := (chars[i]?).any (x.letters.contains ·)

/-- uppercase.rs:181-187 on a position: `is_letter(c) && is_upper(c)`. -/
def CapIndicator.upperAt (x : CapIndicator) (chars : Text) (i : Nat) : Bool :=
  (chars[i]?).any fun c => x.letters.contains c && x.upper.contains c

/-- uppercase.rs:189-191. -/
def CapIndicator.isWordChar (x : CapIndicator) (c : Char) : Bool := x.letters.contains c || x.modeChars.contains c

/-- uppercase.rs:198-200 `find_words`. -/
def CapIndicator.words (x : CapIndicator) (chars : Text) : List (Nat × Nat) := spansIn x.isWordChar chars 0 chars.length

/-- Positions of the letters in `[start, end)`. -/
def CapIndicator.letterPositions (x : CapIndicator) (chars : Text) (start stop : Nat) : List Nat :=
  (List.range' start (stop - start)).filter (x.letterAt chars)

/-- uppercase.rs:202-230 `classify_word`: `some (open, close, letter_count)` for a whole-uppercase word. -/
def CapIndicator.classify (x : CapIndicator) (chars : Text) (start stop : Nat) : Option (Nat × Nat × Nat) :=
  let ls := x.letterPositions chars start stop
  match ls.head?, ls.getLast? with
  | some a, some b => if ls.all (x.upperAt chars) then some (a, b + 1, ls.length) else none
  | _, _ => none

/-- uppercase.rs:128-134 `struct Run`. -/
structure CapRun where
  opn : Nat
  close : Nat
  count : Nat
  needsClose : Bool
  trigger : Nat
  deriving Repr, DecidableEq

/-- uppercase.rs:240-258, the inner loop: from position `j` on, the end of the last uppercase letter, the letter count and
the position where the loop stops. -/
def CapIndicator.extend (x : CapIndicator) (chars : Text) (stop : Nat) : Nat → Nat → Nat → Nat → Nat × Nat × Nat
  | 0, j, close, count => (close, count, j)
  | fuel + 1, j, close, count =>
    if j ≥ stop then (close, count, j)
    else if x.letterAt chars j then
      if x.upperAt chars j then x.extend chars stop fuel (j + 1) (j + 1) (count + 1)
      else (close, count, j)
    else x.extend chars stop fuel (j + 1) close count

/-- uppercase.rs:234-284 `upper_runs`; the fuel is the length of the word. -/
def CapIndicator.upperRuns (x : CapIndicator) (chars : Text) (stop : Nat) : Nat → Nat → List CapRun
  | 0, _ => []
  | fuel + 1, i =>
    if i ≥ stop then []
    else if x.upperAt chars i then
      let (close, count, j) := x.extend chars stop (stop - i) (i + 1) (i + 1) 1
      let follow := (List.range' close (stop - close)).find? (x.letterAt chars)
      ⟨i, close, count, follow.isSome, follow.getD close⟩ :: x.upperRuns chars stop fuel j
    else x.upperRuns chars stop fuel (i + 1)

/-- uppercase.rs:286-300 `emit_letterwise`. -/
def CapIndicator.letterwise (x : CapIndicator) (chars : Text) (start stop : Nat) : List (Nat × Resolved) :=
  match x.capsletter with
  | none => []
  | some t => ((List.range' start (stop - start)).filter (x.upperAt chars)).map fun i => (i, t)

/-- uppercase.rs:304-331 `emit_run`. -/
def CapIndicator.emitRun (x : CapIndicator) (chars : Text) (r : CapRun) : List (Nat × Resolved) :=
  let modeTier := match x.begcaps with
    | some b => (r.opn, b) :: (x.endcaps.map fun t => (r.close, t)).toList
    | none => x.letterwise chars r.opn r.close
  match (if r.count = 1 then x.capsletter else none) with
  | some t => [(r.opn, t)]
  | none => match x.begcapsword with
    | some b =>
      if !r.needsClose then [(r.opn, b)]
      else match x.endcapsword with
        | some e => [(r.opn, b), (r.trigger, e)]
        | none => modeTier
    | none => modeTier

/-- uppercase.rs:333-343 `emit_partial_word`. -/
def CapIndicator.partialWord (x : CapIndicator) (chars : Text) (start stop : Nat) : List (Nat × Resolved) :=
  (x.upperRuns chars stop (stop - start) start).flatMap (x.emitRun chars)

/-- uppercase.rs:348-376 `emit_whole_word`. -/
def CapIndicator.wholeWord (x : CapIndicator) (chars : Text) (w : Nat × Nat × Nat) : List (Nat × Resolved) :=
  match (if w.2.2 = 1 then x.capsletter else none) with
  | some t => [(w.1, t)]
  | none => match x.begcapsword with
    | some t => [(w.1, t)]
    | none => match x.begcaps with
      | some b => (w.1, b) :: (x.endcaps.map fun t => (w.2.1, t)).toList
      | none => x.letterwise chars w.1 w.2.1

/-- uppercase.rs:381-426 `emit_group`; the group is `first :: others` (never empty). -/
def CapIndicator.group (x : CapIndicator) (chars : Text) (first : Nat × Nat × Nat) (others : List (Nat × Nat × Nat))
    (lingWords : Nat) : List (Nat × Resolved) :=
  let last := others.getLast?.getD first
  let perWord := (first :: others).flatMap (x.wholeWord chars)
  if lingWords ≥ x.lenPhrase then
    match x.begcapsphrase with
    | some b => (first.1, b) :: (match x.endcapsphrase with
      | some e => if x.endcapsphraseBefore then x.wholeWord chars last else [(last.2.1, e)]
      | none => (x.endcaps.map fun t => (last.2.1, t)).toList)
    | none => match x.begcaps with
      | some b => (first.1, b) :: (x.endcaps.map fun t => (last.2.1, t)).toList
      | none => perWord
  else perWord

/-- uppercase.rs:443-477, the loop over the words; `group` is the current group, first word first. -/
def CapIndicator.loop (x : CapIndicator) (chars : Text) :
    List (Nat × Nat) → List (Nat × Nat × Nat) → Nat → Option Nat → List (Nat × Resolved)
  | [], [], _, _ => []
  | [], g :: gs, ling, _ => x.group chars g gs ling
  | (s, e) :: ws, group, ling, prevClose =>
    match x.classify chars s e with
    | some w =>
      let fresh := match prevClose with
        | some p => ((chars.take w.1).drop p).any (x.spaces.contains ·)
        | none => true
      x.loop chars ws (group ++ [w]) (if fresh then ling + 1 else ling) (some w.2.1)
    | none =>
      match group with
      | [] => x.partialWord chars s e ++ x.loop chars ws [] ling none
      | g :: gs => x.group chars g gs ling ++ (x.partialWord chars s e ++ x.loop chars ws [] 0 none)

/-- uppercase.rs:429-481 `precompute`. -/
def CapIndicator.precompute (x : CapIndicator) (input : Text) : List (Nat × Resolved) :=
  if !x.isIndicating then [] else sortByPos (x.loop input (x.words input) [] 0 none)

/-! ## Emphasis (emphasis.rs) -/

/-- emphasis.rs:29-40 `enum EmitKind`. -/
inductive EmitKind where
  | opn (runEnd : Nat)
  | close (emitStart : Nat)
  | unordered
  deriving Repr, DecidableEq

/-- emphasis.rs:44-79 `struct ClassIndicator`. -/
structure EmphClass where
  name : Text
  emphletter : Option Resolved
  begemph : Option Resolved
  endemph : Option Resolved
  begemphword : Option Resolved
  endemphword : Option Resolved
  begemphphrase : Option Resolved
  endemphphrase : Option Resolved
  endemphphraseBefore : Bool
  lenPhrase : Nat
  modeChars : List Char
  noemph : List Char
  spaces : List Char

/-- emphasis.rs:82-98 `ClassIndicator::new`. -/
def EmphClass.new (name : Text) : EmphClass :=
  ⟨name, none, none, none, none, none, none, none, true, 4, [], [], []⟩

abbrev EmphEvent := Nat × Resolved × EmitKind

/-- emphasis.rs:100-106 `is_emphasis_word_separator`. -/
def EmphClass.isSep (x : EmphClass) (c : Char) : Bool :=
  if x.modeChars.isEmpty then x.spaces.contains c else x.modeChars.contains c

/-- The same for a position of the text. -/
def EmphClass.sepAt (x : EmphClass) (chars : Text) (i : Nat) : Bool := (chars[i]?).any x.isSep

/-- emphasis.rs:112-126 `active_positions`. -/
def EmphClass.active (x : EmphClass) (chars : Text) (spans : List Span) : Except Fault (List Bool) :=
  markAll (List.replicate chars.length false)
    ((spans.filter (·.cls == x.name)).flatMap fun s =>
      (List.range' s.start (min s.stop chars.length - s.start)).filter fun i => !(chars[i]?).any (x.noemph.contains ·))

/-- emphasis.rs:128-137 `find_word_segments`. -/
def EmphClass.segments (x : EmphClass) (chars : Text) (start stop : Nat) : List (Nat × Nat) :=
  spansIn (fun c => !x.isSep c) chars start stop

/-- emphasis.rs:139-144 `is_indicating`. -/
def EmphClass.isIndicating (x : EmphClass) : Bool :=
  x.emphletter.isSome || x.begemphword.isSome || x.begemph.isSome || x.begemphphrase.isSome

/-- emphasis.rs:264-280 `emit_single_word`. -/
def EmphClass.singleWord (x : EmphClass) (w : Nat × Nat) : List EmphEvent :=
  match (if w.2 - w.1 = 1 then x.emphletter else none) with
  | some t => [(w.1, t, .unordered)]
  | none => (x.begemphword.map fun t => (w.1, t, EmitKind.unordered)).toList

/-- emphasis.rs:232-260 `emit_clean_words`; the words are `first :: others`. -/
def EmphClass.cleanWords (x : EmphClass) (first : Nat × Nat) (others : List (Nat × Nat)) : List EmphEvent :=
  let last := others.getLast?.getD first
  match (if others.length + 1 ≥ x.lenPhrase then x.begemphphrase else none) with
  | some b => (first.1, b, .unordered) ::
      (if x.endemphphraseBefore then x.singleWord last
       else (x.endemphphrase.map fun t => (last.2, t, EmitKind.unordered)).toList)
  | none => (first :: others).flatMap x.singleWord

/-- emphasis.rs:283-324 `emit_partial`. -/
def EmphClass.partialRun (x : EmphClass) (chars : Text) (start stop : Nat) (first : Nat × Nat)
    (others : List (Nat × Nat)) : List EmphEvent :=
  let total := ((first :: others).map fun w => w.2 - w.1).sum
  match (if total = 1 then x.emphletter else none) with
  | some t => [(first.1, t, .unordered)]
  | none => match x.begemphword with
    | some t => (start, t, .unordered) ::
        (if stop < chars.length && !x.sepAt chars stop then
          (x.endemphword.map fun t => (stop, t, EmitKind.unordered)).toList else [])
    | none => match x.begemphphrase with
      | some t => (start, t, .unordered) ::
          (if stop < chars.length then (x.endemphphrase.map fun t => (stop, t, EmitKind.unordered)).toList else [])
      | none => []

/-- `(start..stop).find(|&i| !is_emphasis_word_separator(chars[i]))`. -/
def EmphClass.firstChar (x : EmphClass) (chars : Text) (start stop : Nat) : Option Nat :=
  (List.range' start (stop - start)).find? fun i => !x.sepAt chars i

/-- `(start..stop).rev().find(|&i| !is_emphasis_word_separator(chars[i])).map(|i| i + 1)`. -/
def EmphClass.lastChar (x : EmphClass) (chars : Text) (start stop : Nat) : Option Nat :=
  ((List.range' start (stop - start)).reverse.find? fun i => !x.sepAt chars i).map (· + 1)

/-- emphasis.rs:168-229 `emit_run`. -/
def EmphClass.emitRun (x : EmphClass) (chars : Text) (start stop : Nat) : List EmphEvent :=
  match x.begemph with
  | some b =>
    let s := (x.firstChar chars start stop).getD start
    (s, b, .opn stop) ::
      (x.endemph.map fun e => ((x.lastChar chars start stop).getD stop, e, EmitKind.close s)).toList
  | none =>
    match x.segments chars start stop with
    | [] => []
    | first :: others =>
      let s := (x.firstChar chars start stop).getD start
      let startsClean := s == 0 || x.sepAt chars (s - 1)
      let e := (x.lastChar chars start stop).getD start
      let endsClean := decide (e ≥ chars.length) || x.sepAt chars e
      if startsClean && endsClean then x.cleanWords first others
      else x.partialRun chars start stop first others

/-- emphasis.rs:146-166 `emit`: one `emit_run` per maximal run of active positions. -/
def EmphClass.emit (x : EmphClass) (chars : Text) (active : List Bool) : List EmphEvent :=
  (findSpans id 0 none active).flatMap fun r => x.emitRun chars r.1 r.2

/-- emphasis.rs:457-465: the events of all classes, with the number of the class. -/
def emphEvents (chars : Text) (spans : List Span) : Nat → List EmphClass → Except Fault (List (EmphEvent × Nat))
  | _, [] => .ok []
  | idx, x :: xs =>
    match x.active chars spans with
    | .error e => .error e
    | .ok active => match emphEvents chars spans (idx + 1) xs with
      | .error e => .error e
      | .ok es => .ok ((x.emit chars active).map (·, idx) ++ es)

/-- emphasis.rs:469-489: the comparison given to `sort_by`, as "is less". -/
def emphLess (a b : EmphEvent × Nat) : Bool :=
  if a.1.1 ≠ b.1.1 then decide (a.1.1 < b.1.1)
  else match a.1.2.2, b.1.2.2 with
    | .opn ra, .opn rb => decide (rb < ra) || (rb == ra && decide (b.2 < a.2))
    | .close sa, .close sb => decide (sb < sa) || (sb == sa && decide (a.2 < b.2))
    | _, _ => false

/-- emphasis.rs:445-495 `precompute`. -/
def emphPrecompute (classes : List EmphClass) (input : Text) (spans : List Span) : Except Fault (List (Nat × Resolved)) :=
  match emphEvents input spans 0 classes with
  | .error e => .error e
  | .ok es => .ok ((stableSort emphLess es).map fun e => (e.1.1, e.1.2.1))

/-! ## All indicators -/

/-- table/primary.rs:315-335: the indicators of a table, in the order in which they are consulted. -/
structure Indicators where
  comp : Option CompIndicator
  emph : List EmphClass
  num : Option NumIndicator
  letsign : Option LetIndicator
  caps : Option CapIndicator
  nocontract : Option NocIndicator

/-- indication.rs:105-107 `indications[pos].push(t)`, which panics if the position is out of range. -/
def pushAll : List (List Resolved) → List (Nat × Resolved) → Except Fault (List (List Resolved))
  | v, [] => .ok v
  | v, (p, t) :: ps =>
    match v[p]? with
    | none => .error .panic
    | some l => pushAll (v.set p (l ++ [t])) ps

/-- indication.rs:92-111 `Indicators::precompute`: the pairs of all indicators, in order. -/
def Indicators.pairs (i : Indicators) (lower : Char → List Char) (input : Text) (spans : List Span) :
    Except Fault (List (Nat × Resolved)) :=
  match emphPrecompute i.emph input spans with
  | .error e => .error e
  | .ok emph => .ok (
      (match i.comp with | some c => c.precompute input spans | none => []) ++ emph ++
      (match i.num with | some c => c.precompute input | none => []) ++
      (match i.letsign with | some c => c.precompute lower input | none => []) ++
      (match i.caps with | some c => c.precompute input | none => []) ++
      (match i.nocontract with | some c => c.precompute lower input | none => []))

/-- indication.rs:92-111 `Indicators::precompute`. -/
def Indicators.precompute (i : Indicators) (lower : Char → List Char) (input : Text) (spans : List Span) :
    Except Fault (List (List Resolved)) :=
  match i.pairs lower input spans with
  | .error e => .error e
  | .ok ps => pushAll (List.replicate (input.length + 1) []) ps

end Louis
