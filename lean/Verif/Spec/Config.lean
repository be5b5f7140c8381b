import Verif.Model.Compile
import Verif.Spec.Operand

/-!
# What the lines of a table configure

For every opcode that defines a sign or a set of characters, the setting it stands for: the last line of the opcode counts
for signs, numbers and most sets of characters, all lines together for some sets of characters.
-/

namespace Louis

/-- The value of the last rule that gives one. -/
def latest {α : Type} (f : Anchored → Option α) (rules : List Anchored) : Option α := (rules.filterMap f).getLast?

/-- The dots and the line of the last rule with dots selected by `f`. -/
def lastDots (f : Rule → Option Cells) (rules : List Anchored) : Option (Text × Origin) :=
  latest (fun r => (f r.rule).map fun dots => (dots.toText, r.origin)) rules

/-- The sign of the last rule with dots selected by `f`. -/
def lastSign (f : Rule → Option Cells) (rules : List Anchored) : Option Resolved :=
  latest (fun r => (f r.rule).map fun dots => indication dots.toText r.origin) rules

/-- The operand of the last rule selected by `f`. -/
def lastArg {α : Type} (f : Rule → Option α) (rules : List Anchored) : Option α := latest (fun r => f r.rule) rules

/-- The characters of all rules selected by `f`. -/
def allChars (f : Rule → Option Text) (rules : List Anchored) : Text := rules.flatMap fun r => (f r.rule).getD []

/-- The number of words an operand `n` asks for.  (Sic: a negative one asks for close to 2^64 words.) -/
def countOf : Int → Nat
  | .ofNat n => n
  | .negSucc n => 2 ^ 64 - 1 - n

/-! ## Capitals -/

/-- The settings for capitals. -/
def capsConfig (classes : CharClasses) (rules : List Anchored) : CapIndicator where
  upper := classes.members .uppercase
  letters := classes.members .letter
  spaces := classes.members .space
  modeChars := (lastArg (fun | .capsmodechars cs => some cs | _ => none) rules).getD []
  capsletter := lastSign (fun | .capsletter dots _ => some dots | _ => none) rules
  begcapsword := lastSign (fun | .begcapsword dots _ => some dots | _ => none) rules
  endcapsword := lastSign (fun | .endcapsword dots _ => some dots | _ => none) rules
  begcaps := lastSign (fun | .begcaps dots => some dots | _ => none) rules
  endcaps := lastSign (fun | .endcaps dots => some dots | _ => none) rules
  begcapsphrase := lastSign (fun | .begcapsphrase dots => some dots | _ => none) rules
  endcapsphrase := lastSign (fun | .endcapsphrase dots _ => some dots | _ => none) rules
  endcapsphraseBefore := (lastArg (fun | .endcapsphrase _ before => some before | _ => none) rules).getD true
  lenPhrase := (lastArg (fun | .lencapsphrase n => some (countOf n) | _ => none) rules).getD 2

/-! ## Numbers -/

/-- The characters of numbers: the decimal points come first, then the characters of all `midnum` rules. -/
def numChars (classes : CharClasses) (rules : List Anchored) : NumericChars where
  digits := classes.members .litdigit
  extra := (lastArg (fun | .numericmodechars cs => some cs | _ => none) rules).getD []
  mid := allChars (fun | .decpoint c _ => some [c] | _ => none) rules ++
    allChars (fun | .midnum cs _ _ => some cs | _ => none) rules

/-- The settings for numbers. -/
def numConfig (classes : CharClasses) (rules : List Anchored) : NumIndicator where
  chars := numChars classes rules
  start := lastSign (fun | .numsign dots => some dots | _ => none) rules
  stop := lastSign (fun | .nonumsign dots _ => some dots | _ => none) rules
  terminating := (lastArg (fun | .numericnocontchars cs => some cs | _ => none) rules).getD []

/-! ## Emphasis -/

/-- The name of the emphasis class a rule speaks about. -/
def Rule.emphName? : Rule → Option Text
  | .emphclass n | .emphletter n _ | .begemphword n _ | .endemphword n _ | .begemphphrase n _ | .endemphphrase n _ _
  | .lenemphphrase n _ | .begemph n _ _ | .endemph n _ _ | .emphmodechars n _ | .noemphchars n _ => some n
  | _ => none

/-- The rules of one emphasis class. -/
def emphRules (name : Text) (rules : List Anchored) : List Anchored := rules.filter fun r => r.rule.emphName? == some name

/-- The settings of an emphasis class, from its rules. -/
def emphConfig (classes : CharClasses) (name : Text) (rules : List Anchored) : EmphClass where
  name := name
  emphletter := lastSign (fun | .emphletter _ dots => some dots | _ => none) (emphRules name rules)
  begemph := lastSign (fun | .begemph _ dots _ => some dots | _ => none) (emphRules name rules)
  endemph := lastSign (fun | .endemph _ dots _ => some dots | _ => none) (emphRules name rules)
  begemphword := lastSign (fun | .begemphword _ dots => some dots | _ => none) (emphRules name rules)
  endemphword := lastSign (fun | .endemphword _ dots => some dots | _ => none) (emphRules name rules)
  begemphphrase := lastSign (fun | .begemphphrase _ dots => some dots | _ => none) (emphRules name rules)
  endemphphrase := lastSign (fun | .endemphphrase _ dots _ => some dots | _ => none) (emphRules name rules)
  endemphphraseBefore := (lastArg (fun | .endemphphrase _ _ before => some before | _ => none) (emphRules name rules)).getD true
  lenPhrase := (lastArg (fun | .lenemphphrase _ n => some (countOf n) | _ => none) (emphRules name rules)).getD 4
  modeChars := (lastArg (fun | .emphmodechars _ cs => some cs | _ => none) (emphRules name rules)).getD []
  noemph := (lastArg (fun | .noemphchars _ cs => some cs | _ => none) (emphRules name rules)).getD []
  spaces := classes.members .space

/-- The emphasis classes in the order in which the table first mentions them. -/
def emphNames (rules : List Anchored) : List Text := distinct (rules.filterMap (·.rule.emphName?))

/-! ## Letter signs -/

/-- The contractions. -/
def contractionsOf (rules : List Anchored) : List Text := rules.filterMap fun r => match r.rule with
  | .contraction cs => some cs
  | _ => none

/-- The letters that may need a letter sign. -/
def signLetters (classes : CharClasses) : List Char :=
  classes.members .letter ++ classes.members .uppercase ++ classes.members .lowercase

/-! ## Backward translation -/

/-- The dots of the last rule selected by `f` whose dots are not those of a letter. -/
def backDots (f : Rule → Option Cells) (letterDots : List Text) (rules : List Anchored) : Option Text :=
  latest (fun r => match f r.rule with
    | some dots => if letterDots.contains dots.toText then none else some dots.toText
    | none => none) rules

/-! ## Hyphenation -/

/-- The patterns of the last hyphenation table. -/
def lastHyphenation (sys : Sys) (rules : List Anchored) : Option Hyphenation :=
  latest (fun r => match r.rule with
    | .includeHyphenation path => ((sys.dic path).bind fun lines => (parseDic lines).toOption)
    | _ => none) rules

end Louis
