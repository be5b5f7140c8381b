import Verif.Model.Primary
import Verif.Model.Hyphenation

/-!
# Model of `src/translator/position_constraints.rs`

`Vec<Constraints>` (a set of flags per position) is modelled by one list of Booleans per flag.  Hash sets of characters are
lists of members.
-/

namespace Louis

open Regexp (Fault)

/-- emphasis.rs:10-16 `struct EmphasisSpan`. -/
structure Span where
  cls : Text
  start : Nat
  stop : Nat
  deriving Repr, DecidableEq

/-- `for pos in positions { constraints[pos].insert(flag) }`: indexing out of range panics. -/
def markAll : List Bool → List Nat → Except Fault (List Bool)
  | v, [] => .ok v
  | v, p :: ps => if p < v.length then markAll (v.set p true) ps else .error .panic

/-! ## Numbers -/

/-- position_constraints.rs:135-139 `struct NumericConstrainer`. -/
structure NumericChars where
  digits : List Char
  extra : List Char
  mid : List Char
  deriving Repr, DecidableEq

/-- position_constraints.rs:147-174, the loop of `NumericConstrainer::compute`: one flag per character. -/
def NumericChars.compute (n : NumericChars) : Bool → Text → List Bool
  | _, [] => []
  | inNumeric, c :: cs =>
    match n.digits.contains c, inNumeric with
    | false, false => false :: n.compute false cs
    | true, false => true :: n.compute true cs
    | true, true => true :: n.compute true cs
    | false, true =>
      if n.extra.contains c then true :: n.compute true cs
      else if n.extra.isEmpty && n.mid.contains c && (cs.head?).any (n.digits.contains ·) then true :: n.compute true cs
      else false :: n.compute false cs

/-! ## Hyphenation -/

/-- position_constraints.rs:209-216 `mark_word`: the positions marked. -/
def wordBreaks (h : Hyphenation) (start : Nat) (word : Text) : Except Fault (List Nat) :=
  match h.breakPoints word with
  | .error e => .error e
  | .ok bs => .ok ((List.range bs.length).filterMap fun i => if bs[i]? = some true then some (start + i) else none)

/-- position_constraints.rs:194-203, the loop of `HyphenationConstrainer::compute`: the positions to mark.  `word` is the
word being collected (`chars[start..pos]`), empty when `word_start` is `None`. -/
def hyphenLoop (h : Hyphenation) (letters : List Char) : Nat → Text → Text → Except Fault (List Nat)
  | pos, word, [] => if word = [] then .ok [] else wordBreaks h (pos - word.length) word
  | pos, word, c :: cs =>
    if letters.contains c then hyphenLoop h letters (pos + 1) (word ++ [c]) cs
    else if word = [] then hyphenLoop h letters (pos + 1) [] cs
    else match wordBreaks h (pos - word.length) word with
      | .error e => .error e
      | .ok ps => match hyphenLoop h letters (pos + 1) [] cs with
        | .error e => .error e
        | .ok qs => .ok (ps ++ qs)

/-- position_constraints.rs:190-205 `HyphenationConstrainer::compute`. -/
def hyphenCompute (h : Hyphenation) (letters : List Char) (input : Text) : Except Fault (List Bool) :=
  match hyphenLoop h letters 0 [] input with
  | .error e => .error e
  | .ok ps => markAll (List.replicate input.length false) ps

/-! ## Punctuation -/

/-- position_constraints.rs:231-235 `struct PunctuationConstrainer`. -/
structure PunctChars where
  letters : List Char
  lettersOrDigits : List Char
  spaces : List Char
  deriving Repr, DecidableEq

/-- position_constraints.rs:246-254 and 259-267: the scan for a letter or digit before whitespace. -/
def PunctChars.scan (p : PunctChars) : Text → Bool
  | [] => false
  | c :: cs => if p.lettersOrDigits.contains c then true else if p.spaces.contains c then false else p.scan cs

/-- position_constraints.rs:243-255: the `prepunc` flag at `pos`. -/
def PunctChars.prepunc (p : PunctChars) (chars : Text) (pos : Nat) : Bool :=
  (pos == 0 || !(chars[pos - 1]?).any (p.letters.contains ·)) && p.scan (chars.drop (pos + 1))

/-- position_constraints.rs:256-268: the `postpunc` flag at `pos`. -/
def PunctChars.postpunc (p : PunctChars) (chars : Text) (pos : Nat) : Bool :=
  (pos == chars.length - 1 || !(chars[pos + 1]?).any (p.letters.contains ·)) && p.scan (chars.take pos).reverse

/-! ## Computer braille -/

/-- `"computer_braille"`. -/
def computerBraille : Text := "computer_braille".toList

/-- position_constraints.rs:278-290 `ComputerBrailleConstrainer::compute`. -/
def comp6Compute (input : Text) (spans : List Span) : Except Fault (List Bool) :=
  markAll (List.replicate input.length false)
    ((spans.filter (·.cls == computerBraille)).flatMap fun s =>
      List.range' s.start (min s.stop input.length - s.start))

/-! ## Backward capitals and numbers -/

/-- position_constraints.rs:294-297 `matches_at`, on the remaining text. -/
def startsWith (rest : Text) (pattern : Text) : Bool := pattern.isPrefixOf rest

/-- position_constraints.rs:309-314 `struct BackwardCapsConstrainer`. -/
structure CapsDots where
  capsletter : Option Text
  begcapsword : Option Text
  endcapsword : Option Text
  letters : List Char
  deriving Repr, DecidableEq

/-- position_constraints.rs:330-343, the inner loop: the positions marked `Uppercase`, and the position and text where it
stops.  The remaining text gets shorter at every round except for an empty terminator, which ends the loop. -/
def CapsDots.word (d : CapsDots) : Nat → Text → List Nat × Nat × Text
  | pos, [] => ([], pos + (if d.endcapsword.any (startsWith []) then (d.endcapsword.getD []).length else 0), [])
  | pos, c :: cs =>
    if d.endcapsword.any (startsWith (c :: cs)) then
      ([], pos + (d.endcapsword.getD []).length, (c :: cs).drop (d.endcapsword.getD []).length)
    else if d.letters.contains c then
      (pos :: (d.word (pos + 1) cs).1, (d.word (pos + 1) cs).2.1, (d.word (pos + 1) cs).2.2)
    else ([], pos, c :: cs)

/-- position_constraints.rs:317-358 `BackwardCapsConstrainer::compute`: the positions marked `Uppercase` and those marked
`TitleCase`.  The Rust loop has no fuel. -/
def CapsDots.loop (d : CapsDots) : Nat → Nat → Text → Except Fault (List Nat × List Nat)
  | _, _, [] => .ok ([], [])
  | 0, _, _ :: _ => .error .outOfFuel
  | fuel + 1, pos, c :: cs =>
    if d.begcapsword.any (startsWith (c :: cs)) then
      let n := (d.begcapsword.getD []).length
      let (ps, q, r) := d.word (pos + n) ((c :: cs).drop n)
      match d.loop fuel q r with
      | .error e => .error e
      | .ok (us, ts) => .ok (ps ++ us, ts)
    else if d.capsletter.any (startsWith (c :: cs)) then
      let n := (d.capsletter.getD []).length
      match d.loop fuel (pos + n) ((c :: cs).drop n) with
      | .error e => .error e
      | .ok (us, ts) => .ok (us, (if (c :: cs).drop n = [] then [] else [pos + n]) ++ ts)
    else d.loop fuel (pos + 1) cs

/-- position_constraints.rs:317-358 `BackwardCapsConstrainer::compute`: the two flags of every position. -/
def CapsDots.compute (d : CapsDots) (input : Text) : Except Fault (List Bool × List Bool) :=
  match d.loop (input.length + 1) 0 input with
  | .error e => .error e
  | .ok (us, ts) =>
    match markAll (List.replicate input.length false) us, markAll (List.replicate input.length false) ts with
    | .ok u, .ok t => .ok (u, t)
    | .error e, _ | _, .error e => .error e

/-- position_constraints.rs:372-377 `struct BackwardNumericConstrainer`. -/
structure NumDots where
  numsign : Option Text
  nonumsign : Option Text
  digits : List Char
  letters : List Char
  deriving Repr, DecidableEq

/-- position_constraints.rs:380-413 `BackwardNumericConstrainer::compute`: the positions marked.  `prev` is
`chars[pos - 1]` (`None` at position 0).  The Rust loop has no fuel. -/
def NumDots.loop (d : NumDots) : Nat → Nat → Option Char → Bool → Text → Except Fault (List Nat)
  | _, _, _, _, [] => .ok []
  | 0, _, _, _, _ :: _ => .error .outOfFuel
  | fuel + 1, pos, prev, inNumber, c :: cs =>
    if d.numsign.any (startsWith (c :: cs)) && !(prev.any (d.letters.contains ·)) then
      let s := d.numsign.getD []
      d.loop fuel (pos + s.length) (if s = [] then prev else s.getLast?) true ((c :: cs).drop s.length)
    else if inNumber then
      if d.nonumsign.any (startsWith (c :: cs)) then
        let s := d.nonumsign.getD []
        d.loop fuel (pos + s.length) (if s = [] then prev else s.getLast?) false ((c :: cs).drop s.length)
      else if d.digits.contains c then
        match d.loop fuel (pos + 1) (some c) true cs with
        | .error e => .error e
        | .ok ps => .ok (pos :: ps)
      else d.loop fuel (pos + 1) (some c) false cs
    else d.loop fuel (pos + 1) (some c) false cs

/-- position_constraints.rs:380-413 `BackwardNumericConstrainer::compute`: the flag of every position. -/
def NumDots.compute (d : NumDots) (input : Text) : Except Fault (List Bool) :=
  match d.loop (input.length + 1) 0 none false input with
  | .error e => .error e
  | .ok ps => markAll (List.replicate input.length false) ps

/-! ## All constrainers -/

/-- The constrainers of a table (table/primary.rs:347-376, position_constraints.rs:450-470): `ComputerBraille` is always
present, the others if their builders produce them (`None` otherwise). -/
structure Constrainers where
  numeric : Option NumericChars
  caps : Option CapsDots
  backNumeric : Option NumDots
  hyphenation : Option (Hyphenation × List Char)
  punctuation : Option PunctChars

/-- `get(pos).is_some_and(…)`, position_constraints.rs:83-129. -/
def flagAt (v : List Bool) (pos : Nat) : Bool := (v[pos]?).getD false

/-- position_constraints.rs:457-469 `Constrainers::precompute`.  Every flag is set by a single constrainer, so the union of
the sets is the collection of the flags; `zip` cuts every vector to the length of the input. -/
def Constrainers.precompute (c : Constrainers) (input : Text) (spans : List Span) : Except Fault Constraints :=
  let no := List.replicate input.length false
  match comp6Compute input spans with
  | .error e => .error e
  | .ok comp6 =>
    match (match c.caps with | some d => d.compute input | none => .ok (no, no)) with
    | .error e => .error e
    | .ok (upper, title) =>
      match (match c.backNumeric with | some d => d.compute input | none => .ok no) with
      | .error e => .error e
      | .ok prefer =>
        match (match c.hyphenation with | some (h, letters) => hyphenCompute h letters input | none => .ok no) with
        | .error e => .error e
        | .ok hyph =>
          .ok {
            dontContract := flagAt (match c.numeric with | some x => x.compute false input | none => no)
            useComp6 := flagAt comp6
            uppercase := flagAt upper
            titlecase := flagAt title
            preferDigit := flagAt prefer
            hyphenationBreak := flagAt hyph
            prepuncOk := flagAt (match c.punctuation with | some p => (List.range input.length).map (p.prepunc input) | none => no)
            postpuncOk := flagAt (match c.punctuation with | some p => (List.range input.length).map (p.postpunc input) | none => no) }

end Louis
