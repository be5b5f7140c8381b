import Verif.Props.Escapes
import Verif.Props.Braille

/-!
# The grammars of multipass tests, multipass actions and match patterns

Each predicate relates a source text to the syntax tree it stands for.  The grammars are unambiguous
(`C55_grammar_unambiguous`); the parsers accept exactly them (`C55_test_grammar`, `C55_action_grammar`, `C55_match_grammar`).
-/

namespace Louis

/-! ## Pieces -/

/-- The decimal digits stand for the number. -/
inductive DecValue : Text → Nat → Prop
  | nil : DecValue [] 0
  | snoc (ds : Text) (v d : Nat) (c : Char) (h : DecValue ds v)
      (hd : ['0', '1', '2', '3', '4', '5', '6', '7', '8', '9'][d]? = some c) : DecValue (ds ++ [c]) (10 * v + d)

/-- A number of at least one digit, at most 255. -/
def NumberSrc (ds : Text) (v : Nat) : Prop := ds ≠ [] ∧ DecValue ds v ∧ v ≤ 255

/-- Nothing, `.`, a number, or two numbers with a dash, in increasing order. -/
inductive QuantifierSrc : Text → Option Quantifier → Prop
  | absent : QuantifierSrc [] none
  | some : QuantifierSrc ['.'] (some .oneOrMore)
  | number (ds : Text) (v : Nat) (h : NumberSrc ds v) : QuantifierSrc ds (some (.number v))
  | range (ds es : Text) (v w : Nat) (h : NumberSrc ds v) (h' : NumberSrc es w) (hlt : v < w) :
      QuantifierSrc (ds ++ '-' :: es) (some (.range v w))

/-- The inside of a string.  (Sic: a backslash before another character than `s`, `"`, `x`, `y` stands for itself.) -/
inductive StringSrc : Text → Text → Prop
  | done : StringSrc [] []
  | plain (c : Char) (s t : Text) (h : c ≠ '"' ∧ c ≠ '\\') (more : StringSrc s t) : StringSrc (c :: s) (c :: t)
  | space (s t : Text) (more : StringSrc s t) : StringSrc ('\\' :: 's' :: s) (' ' :: t)
  | quote (s t : Text) (more : StringSrc s t) : StringSrc ('\\' :: '"' :: s) ('"' :: t)
  | number (e : Char) (len : Nat) (ds : Text) (c : Char) (s t : Text) (h : (e, len) ∈ [('x', 4), ('y', 5)])
      (hd : Literal len ds c.toNat) (more : StringSrc s t) : StringSrc ('\\' :: e :: ds ++ s) (c :: t)
  | backslash (c : Char) (s t : Text) (h : c ∉ ['s', '"', 'x', 'y']) (more : StringSrc (c :: s) t) :
      StringSrc ('\\' :: c :: s) ('\\' :: t)

/-- The elements of the list, each once, in the order of their first occurrence. -/
def distinct {α : Type} [DecidableEq α] (l : List α) : List α := l.foldl addNew []

/-! ## Tests -/

/-- The operators. -/
inductive OperatorSrc : Text → Operator → Prop
  | eq : OperatorSrc ['='] .eq
  | lt : OperatorSrc ['<'] .lt
  | ltEq : OperatorSrc ['<', '='] .ltEq
  | gt : OperatorSrc ['>'] .gt
  | gtEq : OperatorSrc ['>', '='] .gtEq

mutual
/-- One test. -/
inductive TestSrc : Text → TestInstr → Prop
  | lookback : TestSrc ['_'] (.lookback 1)
  | lookbackN (ds : Text) (v : Nat) (h : NumberSrc ds v) : TestSrc ('_' :: ds) (.lookback v)
  | clsDigit (c : Char) (h : isClassDigit c = true) : TestSrc ['%', c] (.cls [c] none)
  | cls (name qs : Text) (q : Option Quantifier) (hne : name ≠ []) (ha : ∀ c ∈ name, isAsciiAlpha c = true)
      (hq : QuantifierSrc qs q) : TestSrc ('%' :: name ++ qs) (.cls name q)
  | dots (ds : Text) (cells : Cells) (h : Denotes ds cells) : TestSrc ('@' :: ds) (.dots cells.toText)
  | string (body s : Text) (h : StringSrc body s) : TestSrc ('"' :: body ++ ['"']) (.string s)
  | attributes (ds qs : Text) (attrs : List Attr) (q : Option Quantifier) (hne : ds ≠ [])
      (h : ds.map testAttr = attrs.map some) (hq : QuantifierSrc qs q) :
      TestSrc ('$' :: ds ++ qs) (.attributes (distinct attrs) q)
  | replace (src : Text) (ts : List TestInstr) (h : TestsSrc src ts) : TestSrc ('[' :: src ++ [']']) (.replace ts)
  | varTest (ds os es : Text) (v w : Nat) (op : Operator) (hv : NumberSrc ds v) (ho : OperatorSrc os op)
      (hw : NumberSrc es w) : TestSrc ('#' :: ds ++ (os ++ es)) (.varTest v op w)
  | negate (src : Text) (t : TestInstr) (h : TestSrc src t) (hn : ∀ u, t ≠ .negate u) (hr : ∀ us, t ≠ .replace us) :
      TestSrc ('!' :: src) (.negate t)
  | atBeginning : TestSrc ['`'] .atBeginning
  | atEnd : TestSrc ['~'] .atEnd
/-- A sequence of tests. -/
inductive TestsSrc : Text → List TestInstr → Prop
  | nil : TestsSrc [] []
  | cons (src rest : Text) (t : TestInstr) (ts : List TestInstr) (h : TestSrc src t) (more : TestsSrc rest ts) :
      TestsSrc (src ++ rest) (t :: ts)
end

/-! ## Actions -/

/-- One action.  (Sic: there is no way to write an increment or decrement, see C36.) -/
inductive ActionSrc : Text → ActionInstr → Prop
  | dots (ds : Text) (cells : Cells) (h : Denotes ds cells) : ActionSrc ('@' :: ds) (.dots cells.toText)
  | string (body s : Text) (h : StringSrc body s) : ActionSrc ('"' :: body ++ ['"']) (.string s)
  | replace : ActionSrc ['*'] .replace
  | ignore : ActionSrc ['?'] .ignore
  | assignment (ds es : Text) (v w : Nat) (hv : NumberSrc ds v) (hw : NumberSrc es w) :
      ActionSrc ('#' :: ds ++ '=' :: es) (.assignment v w)
  | swapClass (name : Text) (hne : name ≠ []) (ha : ∀ c ∈ name, isAsciiAlpha c = true) :
      ActionSrc ('%' :: name) (.swapClass name)

/-- A sequence of actions. -/
inductive ActionsSrc : Text → List ActionInstr → Prop
  | nil : ActionsSrc [] []
  | cons (src rest : Text) (a : ActionInstr) (as : List ActionInstr) (h : ActionSrc src a) (more : ActionsSrc rest as) :
      ActionsSrc (src ++ rest) (a :: as)

/-! ## Match patterns -/

/-- The inside of a set of characters. -/
inductive SetSrc : Text → List Char → Prop
  | done : SetSrc [] []
  | plain (c : Char) (s : Text) (cs : List Char) (h : c ≠ ']' ∧ c ≠ '\\') (more : SetSrc s cs) : SetSrc (c :: s) (c :: cs)
  | escaped (c : Char) (s : Text) (cs : List Char) (h : c ∈ [']', '(', ')']) (more : SetSrc s cs) :
      SetSrc ('\\' :: c :: s) (c :: cs)

/-- The pattern ends with a run of characters, which a following character would continue. -/
def Pattern.endsOpen : Pattern → Bool
  | .characters _ => true
  | .negate p => p.endsOpen
  | _ => false

/-- The pattern has a quantifier. -/
def Pattern.isQuantified : Pattern → Bool
  | .optional _ | .zeroOrMore _ | .oneOrMore _ => true
  | _ => false

/-- The pattern is a negation. -/
def Pattern.isNegation : Pattern → Bool
  | .negate _ => true
  | _ => false

/-- A quantifier after the pattern belongs to its inside: a negation whose inside has no quantifier. -/
def Pattern.passesQuantifier : Pattern → Bool
  | .negate p => !p.isQuantified
  | _ => false

/-- The quantifiers. -/
inductive PatternQuantifier : Char → Pattern → Pattern → Prop
  | optional (p : Pattern) : PatternQuantifier '?' p (.optional p)
  | zeroOrMore (p : Pattern) : PatternQuantifier '*' p (.zeroOrMore p)
  | oneOrMore (p : Pattern) : PatternQuantifier '+' p (.oneOrMore p)

mutual
/-- A pattern without a quantifier. -/
inductive InnerSrc (side : Side) : Text → Pattern → Prop
  | any : InnerSrc side ['.'] .any
  | boundary (c : Char) (h : c = '^' ∨ c = '$') : InnerSrc side [c] (.boundary side)
  | attr (c : Char) (a : Attr) (h : matchAttr c = some a) : InnerSrc side ['%', c] (attrPattern side [a])
  | attrs (cs : Text) (as : List Attr) (hne : cs ≠ []) (h : cs.map matchAttr = as.map some) :
      InnerSrc side ('%' :: '[' :: cs ++ [']']) (attrPattern side (distinct as))
  | set (body : Text) (cs : List Char) (hne : cs ≠ []) (h : SetSrc body cs) :
      InnerSrc side ('[' :: body ++ [']']) (.set (distinct cs))
  | characters (s : Text) (hne : s ≠ []) (h : ∀ c ∈ s, isSpecial c = false) : InnerSrc side s (.characters s)
  | group (src : Text) (ps : List Pattern) (h : EitherSrc side src ps) : InnerSrc side ('(' :: src ++ [')']) (.group ps)
  | negate (src : Text) (p : Pattern) (h : QuantifiedSrc side src p) (hn : p.isNegation = false) :
      InnerSrc side ('!' :: src) (.negate p)
/-- A pattern, possibly with a quantifier. -/
inductive QuantifiedSrc (side : Side) : Text → Pattern → Prop
  | plain (src : Text) (p : Pattern) (h : InnerSrc side src p) : QuantifiedSrc side src p
  | quantified (src : Text) (p q : Pattern) (c : Char) (h : InnerSrc side src p) (hc : PatternQuantifier c p q)
      (hp : p.passesQuantifier = false) : QuantifiedSrc side (src ++ [c]) q
/-- A sequence of patterns. -/
inductive SequenceSrc (side : Side) : Text → List Pattern → Prop
  | nil : SequenceSrc side [] []
  | cons (src rest : Text) (p : Pattern) (ps : List Pattern) (h : QuantifiedSrc side src p)
      (more : SequenceSrc side rest ps)
      (hopen : p.endsOpen = true → ∀ c, rest.head? = some c → isSpecial c = true) :
      SequenceSrc side (src ++ rest) (p :: ps)
/-- Alternatives, each a nonempty sequence, associated to the left. -/
inductive EitherSrc (side : Side) : Text → List Pattern → Prop
  | intro (src rest : Text) (first out : List Pattern) (h : SequenceSrc side src first) (hne : first ≠ [])
      (more : AlternativesSrc side first rest out) : EitherSrc side (src ++ rest) out
/-- What follows the first alternatives. -/
inductive AlternativesSrc (side : Side) : List Pattern → Text → List Pattern → Prop
  | done (left : List Pattern) : AlternativesSrc side left [] left
  | alternative (left right out : List Pattern) (src rest : Text) (h : SequenceSrc side src right) (hne : right ≠ [])
      (more : AlternativesSrc side [.either left right] rest out) : AlternativesSrc side left ('|' :: src ++ rest) out
end

/-- The operands of `match`.  (Sic: what follows a leading dash is ignored.) -/
inductive MatchSrc (side : Side) : Text → List Pattern → Prop
  | nothing : MatchSrc side [] []
  | dash (rest : Text) : MatchSrc side ('-' :: rest) [.empty]
  | pattern (src : Text) (ps : List Pattern) (h : EitherSrc side src ps) (hd : src.head? ≠ some '-') : MatchSrc side src ps

end Louis
