import Verif.Model.Multipass

/-!
# What a multipass line does, exactly

An interpreter for the tests of `correct`, `context` and `pass2`–`pass4` lines that knows nothing about regular expressions:
for each instruction the ways of going on, the preferred one first.
-/

namespace Louis

/-- How far the reading of a test has got. -/
structure Place where
  /-- what has been read -/
  read : Text
  /-- the text that follows -/
  rest : Text
  /-- what had been read when a bracket was opened last -/
  opened : Text
  /-- what had been read when a bracket was closed last -/
  closed : Text
  deriving Repr, DecidableEq

/-- The place `n` characters further on. -/
def Place.after (p : Place) (n : Nat) : Place := { p with read := p.read ++ p.rest.take n, rest := p.rest.drop n }

/-- A bracket is opened here. -/
def Place.opening (p : Place) : Place := { p with opened := p.read, closed := [] }

/-- A bracket is closed here. -/
def Place.closing (p : Place) : Place := { p with closed := p.read }

/-- How many characters of the text have the property, before the first one that has not. -/
def runLength (p : Char → Bool) : Text → Nat
  | [] => 0
  | c :: cs => if p c then runLength p cs + 1 else 0

/-- How many of the `k` characters available a quantifier takes, as many as possible first.  (Sic: `min-max` takes `min`
characters, then `max - min` more as often as there are any: C02.) -/
def counts (k : Nat) : Option Quantifier → List Nat
  | none => if 1 ≤ k then [1] else []
  | some (.number n) => if n ≤ k then [n] else []
  | some .oneOrMore => (List.range k).reverse.map (· + 1)
  | some (.range a b) => if a ≤ k then (List.range ((k - a) / (b - a) + 1)).reverse.map fun i => a + i * (b - a) else []

/-- The character belongs to one of the attributes.  (Sic: the attributes `$a` and `$w`–`$z` have no members.) -/
def ofAttrs (classes : CharClasses) (as : List Attr) (c : Char) : Bool :=
  as.any fun
    | .cls k => classes.has k c
    | _ => false

/-- The character belongs to the class of this name. -/
def ofClass (classes : CharClasses) (name : Text) (c : Char) : Bool := classes.has (CharClass.ofName name) c

/-- The text starts with as many characters as `s` has, each different from the one `s` has in its place. -/
def differs : Text → Text → Bool
  | [], _ => true
  | _ :: _, [] => false
  | e :: es, c :: cs => c != e && differs es cs

/-- The comparison of a variable with a number. -/
def Operator.test : Operator → Nat → Nat → Bool
  | .eq, a, b => a == b
  | .gt, a, b => a > b
  | .lt, a, b => a < b
  | .gtEq, a, b => a ≥ b
  | .ltEq, a, b => a ≤ b

/-- The ways of reading `!t`, the preferred one first.  (Sic: `!` of a look-back never succeeds; a variable that has not
been set is neither equal nor different.) -/
def readingsNot (classes : CharClasses) (env : Env) (atStart : Bool) : TestInstr → Place → List Place
  | .varTest v op o, p => if (env v).any (!op.test · o) then [p] else []
  | .string s, p | .dots s, p => if differs s p.rest then [p.after s.length] else []
  | .attributes as q, p => (counts (runLength (!ofAttrs classes as ·) p.rest) q).map p.after
  | .cls n q, p => (counts (runLength (!ofClass classes n ·) p.rest) q).map p.after
  | .atBeginning, p => if atStart && p.read.isEmpty then [] else [p]
  | .atEnd, p => if p.rest.isEmpty then [] else [p]
  | _, _ => []

mutual
/-- The ways of reading a test instruction, the preferred one first.  `atStart`: the reading of the test has started at the
beginning of the text.  (Sic: a look-back is always satisfied.) -/
def readings (classes : CharClasses) (env : Env) (atStart : Bool) : TestInstr → Place → List Place
  | .lookback _, p => [p]
  | .varTest v op o, p => if (env v).any (op.test · o) then [p] else []
  | .string s, p | .dots s, p => if s.isPrefixOf p.rest then [p.after s.length] else []
  | .attributes as q, p => (counts (runLength (ofAttrs classes as) p.rest) q).map p.after
  | .cls n q, p => (counts (runLength (ofClass classes n) p.rest) q).map p.after
  | .negate t, p => readingsNot classes env atStart t p
  | .replace ts, p => (readingsAll classes env atStart ts p.opening).map Place.closing
  | .atBeginning, p => if atStart && p.read.isEmpty then [p] else []
  | .atEnd, p => if p.rest.isEmpty then [p] else []
/-- The ways of reading a sequence of instructions: a later instruction is tried in all ways before an earlier one is
read differently. -/
def readingsAll (classes : CharClasses) (env : Env) (atStart : Bool) : List TestInstr → Place → List Place
  | [], p => [p]
  | t :: ts, p => (readings classes env atStart t p).flatMap (readingsAll classes env atStart ts)
end

/-- The test has a bracket (on the outermost level). -/
def bracketed (test : List TestInstr) : Bool :=
  test.any fun
    | .replace _ => true
    | _ => false

/-- How the test reads the text: the preferred way.  Without brackets all that is read counts as bracketed. -/
def firstReading (classes : CharClasses) (env : Env) (atStart : Bool) (test : List TestInstr) (input : Text) : Option Place :=
  (readingsAll classes env atStart (if bracketed test then test else [.replace test]) ⟨[], input, [], []⟩).head?

/-- Before, inside and after the brackets. -/
structure Extent where
  before : Text
  inside : Text
  after : Text
  deriving Repr, DecidableEq

/-- What a test reads at the beginning of the text, divided by the brackets. -/
def stretchOf (classes : CharClasses) (env : Env) (atStart : Bool) (test : List TestInstr) (input : Text) : Option Extent :=
  (firstReading classes env atStart test input).map fun p =>
    ⟨p.opened, (p.closed.drop p.opened.length), p.read.drop p.closed.length⟩

/-- The tests for which all this is meant: the ones a line can contain. -/
def Quantifier.Sound : Option Quantifier → Prop
  | some (.range a b) => a < b
  | _ => True

mutual
/-- The instruction can be written in a table. -/
def TestInstr.Written : TestInstr → Prop
  | .attributes _ q | .cls _ q => Quantifier.Sound q
  | .negate t => (∀ u, t ≠ .negate u) ∧ (∀ us, t ≠ .replace us) ∧ TestInstr.Written t
  | .replace ts => TestsWritten ts
  | _ => True
/-- All of them can be written in a table. -/
def TestsWritten : List TestInstr → Prop
  | [] => True
  | t :: ts => TestInstr.Written t ∧ TestsWritten ts
end

end Louis
