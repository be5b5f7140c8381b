import Verif.Model.Indicators

/-!
# What the capital indicators of a text mean

The vocabulary of C27.  A text is seen through the letters, upper-case letters and word characters of a table
(`CapIndicator.letterAt` and `upperAt` say that a position holds a letter, an upper-case letter of the table:
`letterAt_iff`, `upperAt_iff` in `Verif.Props.Capitals`).
-/

namespace Louis

/-- Position `i` holds a letter that is not an upper-case letter. -/
def CapIndicator.LowAt (x : CapIndicator) (chars : Text) (i : Nat) : Prop :=
  x.letterAt chars i = true ∧ x.upperAt chars i = false

/-- Position `i` holds a character that belongs to words: a letter or one of the `capsmodechars`. -/
def CapIndicator.WordAt (x : CapIndicator) (chars : Text) (i : Nat) : Prop :=
  ∃ c, chars[i]? = some c ∧ (c ∈ x.letters ∨ c ∈ x.modeChars)

/-- `[p, e)` is a maximal run of upper-case letters inside a word: it begins and ends with an upper-case letter, contains no
other kind of letter, and cannot be extended to any other upper-case letter of the word without crossing a letter that is not
upper-case. -/
structure UpperRun (x : CapIndicator) (chars : Text) (p e : Nat) : Prop where
  nonempty : p < e
  first : x.upperAt chars p = true
  last : x.upperAt chars (e - 1) = true
  inside : ∀ k, p ≤ k → k < e → x.WordAt chars k ∧ ¬ x.LowAt chars k
  right : ∀ j, e ≤ j → x.upperAt chars j = true → ∃ k, e ≤ k ∧ k ≤ j ∧ (¬ x.WordAt chars k ∨ x.LowAt chars k)
  left : ∀ j, j < p → x.upperAt chars j = true → ∃ k, j ≤ k ∧ k < p ∧ (¬ x.WordAt chars k ∨ x.LowAt chars k)

/-- The ways to announce upper-case letters. -/
inductive CapMark where
  /-- the letter sign at one letter -/
  | letter (i : Nat)
  /-- the word sign for `[p, e)`, with the word terminator at `stop` -/
  | word (p e : Nat) (stop : Option Nat)
  /-- the mode signs around `[p, e)` -/
  | mode (p e : Nat)
  deriving Repr, DecidableEq

/-- An announcement: a mark, or a phrase `[p, e)`, whose last word is marked with `tail` if that is how phrases are closed. -/
inductive CapPiece where
  | one (m : CapMark)
  | phrase (p e : Nat) (tail : List CapMark)
  deriving Repr, DecidableEq

/-- Where the announced region begins. -/
def CapMark.start : CapMark → Nat
  | .letter i => i
  | .word p _ _ => p
  | .mode p _ => p

/-- The end of the announced region. -/
def CapMark.stop : CapMark → Nat
  | .letter i => i + 1
  | .word _ e _ => e
  | .mode _ e => e

/-- The last position at which the mark may write something. -/
def CapMark.lastPos : CapMark → Nat
  | .letter i => i
  | .word _ e none => e - 1
  | .word _ _ (some q) => q
  | .mode _ e => e

def CapPiece.start : CapPiece → Nat
  | .one m => m.start
  | .phrase p _ _ => p

def CapPiece.stop : CapPiece → Nat
  | .one m => m.stop
  | .phrase _ e _ => e

def CapPiece.lastPos : CapPiece → Nat
  | .one m => m.lastPos
  | .phrase _ e _ => e

/-- What a mark writes. -/
def CapMark.emit (x : CapIndicator) : CapMark → List (Nat × Resolved)
  | .letter i => x.capsletter.toList.map fun t => (i, t)
  | .word p _ stop => x.begcapsword.toList.map (fun t => (p, t)) ++
      (match stop with
      | none => []
      | some q => x.endcapsword.toList.map fun t => (q, t))
  | .mode p e => x.begcaps.toList.map (fun t => (p, t)) ++ x.endcaps.toList.map fun t => (e, t)

/-- What an announcement writes: a phrase is closed by the marks of its last word (`endcapsphrase` "before"), by
`endcapsphrase` or, if that is not defined, by `endcaps`. -/
def CapPiece.emit (x : CapIndicator) : CapPiece → List (Nat × Resolved)
  | .one m => m.emit x
  | .phrase p e tail => x.begcapsphrase.toList.map (fun t => (p, t)) ++
      (match x.endcapsphrase with
      | some t => if x.endcapsphraseBefore then tail.flatMap (·.emit x) else [(e, t)]
      | none => x.endcaps.toList.map fun t => (e, t))

/-- The number of whitespace-separated words of a list of consecutive runs. -/
def spacedWords (x : CapIndicator) (chars : Text) : List (Nat × Nat) → Nat
  | [] => 0
  | [_] => 1
  | a :: b :: r => (if ((chars.take b.1).drop a.2).any (x.spaces.contains ·) then 1 else 0) + spacedWords x chars (b :: r)

/-- `[p, e)` is a passage in upper case: consecutive runs, at least as many whitespace-separated words as a phrase needs, and
no letter outside the runs. -/
structure Passage (x : CapIndicator) (chars : Text) (p e : Nat) (runs : List (Nat × Nat)) : Prop where
  first : runs.head?.map (·.1) = some p
  last : runs.getLast?.map (·.2) = some e
  each : ∀ r ∈ runs, UpperRun x chars r.1 r.2
  order : runs.Pairwise (fun r s => r.2 < s.1)
  upper : ∀ i, p ≤ i → i < e → ¬ x.LowAt chars i
  long : x.lenPhrase ≤ spacedWords x chars runs

/-- When a mark is in order. -/
def CapMark.Valid (x : CapIndicator) (chars : Text) : CapMark → Prop
  | .letter i => x.upperAt chars i = true ∧ x.capsletter.isSome ∧
      -- a run of one letter, or there is no sign for the whole run
      (UpperRun x chars i (i + 1) ∨ (x.begcaps = none ∧ (x.begcapsword = none ∨ x.endcapsword = none)))
  | .word p e stop => UpperRun x chars p e ∧ x.begcapsword.isSome ∧ (x.capsletter = none ∨ p + 1 < e) ∧
      (match stop with
      -- no terminator: no letter follows in the word
      | none => ∀ q, e ≤ q → (∀ k, e ≤ k → k ≤ q → x.WordAt chars k) → x.letterAt chars q = false
      -- a terminator: at the first letter that follows in the word
      | some q => x.endcapsword.isSome ∧ e ≤ q ∧ x.LowAt chars q ∧
          ∀ k, e ≤ k → k < q → x.WordAt chars k ∧ x.letterAt chars k = false)
  | .mode p e => x.begcaps.isSome ∧
      ((UpperRun x chars p e ∧ (x.capsletter = none ∨ p + 1 < e) ∧ (x.begcapsword = none ∨ x.endcapsword = none)) ∨
        (x.begcapsphrase = none ∧ ∃ runs, Passage x chars p e runs))

/-- When an announcement is in order. -/
def CapPiece.Valid (x : CapIndicator) (chars : Text) : CapPiece → Prop
  | .one m => m.Valid x chars
  | .phrase p e tail => x.begcapsphrase.isSome ∧ (∃ runs, Passage x chars p e runs) ∧
      -- the marks of the tail lie in the last run and are in order
      (∀ m ∈ tail, p ≤ m.start ∧ m.lastPos ≤ e ∧ m.Valid x chars) ∧ tail.Pairwise (fun a b => a.lastPos < b.start)

end Louis
