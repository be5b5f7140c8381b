import Verif.Model.Multipass
import Verif.Model.MatchPattern

/-!
# What the tests of multipass rules and the patterns of match rules mean

A reading relates a stretch `m` of the text to what it is read as; `pre` is the text between the place where the reading of
the whole test started and `m`, `post` is all the text after `m`.  Nothing here mentions regular expressions.
-/

namespace Louis

/-- `R pre m post`: the stretch `m`, found after `pre` and before `post`, reads as `R` says. -/
abbrev Reading := Text → Text → Text → Prop

/-- A single character with property `p`. -/
def Reading.one (p : Char → Prop) : Reading := fun _ m _ => ∃ c, m = [c] ∧ p c

/-- Nothing, where the condition holds. -/
def Reading.here (p : Text → Text → Prop) : Reading := fun pre m post => m = [] ∧ p pre post

/-- First one reading, directly after it the other. -/
def Reading.seq (R S : Reading) : Reading := fun pre m post =>
  ∃ a b, m = a ++ b ∧ R pre a (b ++ post) ∧ S (pre ++ a) b post

/-- The same reading `n` times in a row. -/
def Reading.times (R : Reading) : Nat → Reading
  | 0 => fun _ m _ => m = []
  | n + 1 => Reading.seq R (Reading.times R n)

/-! ## Tests -/

/-- The number of characters a quantifier admits. -/
def admits : Option Quantifier → Nat → Prop
  | none, n => n = 1
  | some (.number k), n => n = k
  | some (.range a b), n => a ≤ n ∧ n ≤ b
  | some .oneOrMore, n => 1 ≤ n

/-- The character has one of the attributes. -/
def HasAttr (ctx : CharClasses) (as : List Attr) (c : Char) : Prop :=
  Attr.any ∈ as ∨ ∃ k, Attr.cls k ∈ as ∧ ctx.has k c = true

/-- The character is a member of the class with this name. -/
def InClass (ctx : CharClasses) (name : Text) (c : Char) : Prop := ctx.has (CharClass.ofName name) c = true

/-- As many characters as the quantifier says, all with property `p`. -/
def Reading.some (q : Option Quantifier) (p : Char → Prop) : Reading := fun _ m _ => admits q m.length ∧ ∀ c ∈ m, p c

/-- The comparison of a variable. -/
def Operator.holds : Operator → Nat → Nat → Prop
  | .eq, a, b => a = b
  | .gt, a, b => a > b
  | .lt, a, b => a < b
  | .gtEq, a, b => a ≥ b
  | .ltEq, a, b => a ≤ b

/-- What `!t` reads: as many characters as `t` would, none of them fitting; or nothing where the condition `t` fails. -/
def ReadsNot (ctx : CharClasses) (env : Env) (atStart : Bool) : TestInstr → Reading
  | .string s | .dots s => fun _ m _ => m.length = s.length ∧ m ≠ s
  | .attributes as q => .some q fun c => ¬ HasAttr ctx as c
  | .cls n q => .some q fun c => ¬ InClass ctx n c
  | .varTest v op o => .here fun _ _ => ¬ ∃ a, env v = .some a ∧ op.holds a o
  | .atBeginning => .here fun pre _ => ¬ (atStart = true ∧ pre = [])
  | .atEnd => .here fun _ post => post ≠ []
  | .lookback _ | .negate _ | .replace _ => fun _ _ _ => False

mutual
/-- What a test instruction reads. `atStart`: the reading started at the beginning of the text. -/
def Reads (ctx : CharClasses) (env : Env) (atStart : Bool) : TestInstr → Reading
  | .lookback _ => .here fun _ _ => True
  | .varTest v op o => .here fun _ _ => ∃ a, env v = .some a ∧ op.holds a o
  | .string s => fun _ m _ => m = s
  | .dots s => fun _ m _ => m = s
  | .attributes as q => .some q (HasAttr ctx as)
  | .cls n q => .some q (InClass ctx n)
  | .negate t => ReadsNot ctx env atStart t
  | .replace ts => ReadsAll ctx env atStart ts
  | .atBeginning => .here fun pre _ => atStart = true ∧ pre = []
  | .atEnd => .here fun _ post => post = []
/-- What a sequence of test instructions reads. -/
def ReadsAll (ctx : CharClasses) (env : Env) (atStart : Bool) : List TestInstr → Reading
  | [] => .here fun _ _ => True
  | t :: ts => .seq (Reads ctx env atStart t) (ReadsAll ctx env atStart ts)
end

/-- The part of a test before the brackets, the bracketed part and the part after; without brackets everything counts as
bracketed. -/
inductive Parts : List TestInstr → List TestInstr → List TestInstr → List TestInstr → Prop where
  | bracket (before inside after) : Parts (before ++ .replace inside :: after) before inside after
  | whole (test) (h : ∀ ts, TestInstr.replace ts ∉ test) : Parts test [] test []

/-! ## Actions -/

/-- The text a list of actions writes when the bracketed text is `y`. -/
inductive Writes (swaps : SwapClasses) (y : Text) : List ActionInstr → Text → Prop where
  | nil : Writes swaps y [] []
  | string (s as out) : Writes swaps y as out → Writes swaps y (.string s :: as) (s ++ out)
  | dots (s as out) : Writes swaps y as out → Writes swaps y (.dots s :: as) (s ++ out)
  | replace (as out) : Writes swaps y as out → Writes swaps y (.replace :: as) (y ++ out)
  | swap (n s as out) : swaps.get n = .some s → Writes swaps y as out → Writes swaps y (.swapClass n :: as) (s.swap y ++ out)
  | ignore (as out) : Writes swaps y as out → Writes swaps y (.ignore :: as) out
  | assignment (v x as out) : Writes swaps y as out → Writes swaps y (.assignment v x :: as) out
  | increment (v as out) : Writes swaps y as out → Writes swaps y (.increment v :: as) out
  | decrement (v as out) : Writes swaps y as out → Writes swaps y (.decrement v :: as) out

/-- The variable updates a list of actions asks for, in order. -/
inductive Asks : List ActionInstr → List Effect → Prop where
  | nil : Asks [] []
  | assignment (v x as es) : Asks as es → Asks (.assignment v x :: as) (⟨v, .set x⟩ :: es)
  | increment (v as es) : Asks as es → Asks (.increment v :: as) (⟨v, .increment⟩ :: es)
  | decrement (v as es) : Asks as es → Asks (.decrement v :: as) (⟨v, .decrement⟩ :: es)
  | string (s as es) : Asks as es → Asks (.string s :: as) es
  | dots (s as es) : Asks as es → Asks (.dots s :: as) es
  | swap (n as es) : Asks as es → Asks (.swapClass n :: as) es
  | replace (as es) : Asks as es → Asks (.replace :: as) es
  | ignore (as es) : Asks as es → Asks (.ignore :: as) es

/-! ## Patterns of match rules -/

/-- What the boundary sign reads: nothing, at the respective end of the text. -/
def ReadsBoundary (atStart : Bool) : Side → Reading
  | .pre => .here fun pre _ => atStart = true ∧ pre = []
  | .post => .here fun _ post => post = []

/-- What the negation of a pattern reads: one character that does not fit; or nothing, away from the boundary. -/
def NotReads (ctx : CharClasses) (atStart : Bool) : Pattern → Reading
  | .characters s => fun _ m _ => m.length = s.length ∧ m ≠ s
  | .set cs => .one (· ∉ cs)
  | .attributes as => .one fun c => ¬ HasAttr ctx as c
  | .boundary side => fun pre m post => m = [] ∧ ¬ ReadsBoundary atStart side pre m post
  | _ => fun _ _ _ => False

mutual
/-- What a pattern reads. -/
def PReads (ctx : CharClasses) (atStart : Bool) : Pattern → Reading
  | .empty => .here fun _ _ => True
  | .characters s => fun _ m _ => m = s
  | .boundary side => ReadsBoundary atStart side
  | .any => .one fun _ => True
  | .set cs => .one (· ∈ cs)
  | .attributes as => .one (HasAttr ctx as)
  | .attributesOrBoundary as side => fun pre m post =>
      Reading.one (HasAttr ctx as) pre m post ∨ ReadsBoundary atStart side pre m post
  | .group ps => PReadsAll ctx atStart ps
  | .negate p => NotReads ctx atStart p
  | .optional p => fun pre m post => m = [] ∨ PReads ctx atStart p pre m post
  | .zeroOrMore p => fun pre m post => ∃ n, Reading.times (PReads ctx atStart p) n pre m post
  | .oneOrMore p => fun pre m post => ∃ n, 1 ≤ n ∧ Reading.times (PReads ctx atStart p) n pre m post
  | .either l r => fun pre m post => PReadsAll ctx atStart l pre m post ∨ PReadsAll ctx atStart r pre m post
/-- What a sequence of patterns reads. -/
def PReadsAll (ctx : CharClasses) (atStart : Bool) : List Pattern → Reading
  | [] => .here fun _ _ => True
  | p :: ps => .seq (PReads ctx atStart p) (PReadsAll ctx atStart ps)
end

end Louis
