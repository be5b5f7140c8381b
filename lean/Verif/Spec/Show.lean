import Verif.Spec.Lines
import Verif.Model.Show

/-!
# C70: what is shown for a line of a table

Written in terms of the words of the line.
-/

namespace Louis

/-- The opcodes whose lines `Display` does not know. -/
def unshownOpcodes : List String :=
  ["include", "display", "capsmodechars", "begcapsphrase", "endcapsphrase", "lencapsphrase", "noletsignbefore", "noletsignafter",
   "numericnocontchars", "numericmodechars", "seqdelimiter", "seqbeforechars", "seqafterchars", "class", "emphclass", "begemph",
   "endemph", "noemphchars", "emphletter", "begemphword", "endemphword", "emphmodechars", "begemphphrase", "endemphphrase",
   "lenemphphrase", "begcomp", "endcomp", "syllable", "joinword", "lowword", "swapcd", "swapdd", "swapcc"]

/-- How a number is shown: without leading zeros. -/
def ShownNumber (ds s : Text) : Prop :=
  ∃ v, NumberSrc ds v ∧ NumberSrc s v ∧ (s.head? = some '0' → s = ['0'])

/-- How the number of repetitions is shown. -/
inductive ShownRepeat : Text → Text → Prop
  | absent : ShownRepeat [] []
  | some : ShownRepeat ['.'] ['.']
  | number (ds s : Text) (h : ShownNumber ds s) : ShownRepeat ds s
  | range (ds es s t : Text) (h : ShownNumber ds s) (h' : ShownNumber es t) : ShownRepeat (ds ++ '-' :: es) (s ++ '-' :: t)

/-- The characters of the first list, each once, in any order. -/
def Rearranged {α : Type} (xs ys : List α) : Prop := ys.Nodup ∧ ∀ x, x ∈ ys ↔ x ∈ xs

mutual
/-- How a test is shown: as it is written, but with the letters of classes each once and in any order, the escapes in strings
decoded, dots as braille, numbers without leading zeros, and `_` with its number. -/
inductive ShownTest : Text → Text → Prop
  | lookback : ShownTest ['_'] ['_', '1']
  | lookbackN (ds s : Text) (h : ShownNumber ds s) : ShownTest ('_' :: ds) ('_' :: s)
  | clsDigit (c : Char) : ShownTest ['%', c] ['%', c]
  | cls (name qs qs' : Text) (h : ShownRepeat qs qs') : ShownTest ('%' :: name ++ qs) ('%' :: name ++ qs')
  | dots (ds : Text) (cells : Cells) (h : Denotes ds cells) : ShownTest ('@' :: ds) ('@' :: cells.toText)
  | string (body s : Text) (h : StringSrc body s) : ShownTest ('"' :: body ++ ['"']) ('"' :: s ++ ['"'])
  | attributes (ds ds' qs qs' : Text) (h : Rearranged ds ds') (hq : ShownRepeat qs qs') :
      ShownTest ('$' :: ds ++ qs) ('$' :: ds' ++ qs')
  | replace (src s : Text) (h : ShownTests src s) : ShownTest ('[' :: src ++ [']']) ('[' :: s ++ [']'])
  | varTest (ds os es s t : Text) (hv : ShownNumber ds s) (ho : os ∈ [['='], ['<'], ['<', '='], ['>'], ['>', '=']])
      (hw : ShownNumber es t) : ShownTest ('#' :: ds ++ (os ++ es)) ('#' :: s ++ (os ++ t))
  | negate (src s : Text) (h : ShownTest src s) : ShownTest ('!' :: src) ('!' :: s)
  | atBeginning : ShownTest ['`'] ['`']
  | atEnd : ShownTest ['~'] ['~']
/-- One after the other. -/
inductive ShownTests : Text → Text → Prop
  | nil : ShownTests [] []
  | cons (src rest s t : Text) (h : ShownTest src s) (more : ShownTests rest t) : ShownTests (src ++ rest) (s ++ t)
end

/-- How an action is shown.  (Sic: without the quotes of strings and the `@` of dots.) -/
inductive ShownAction : Text → Text → Prop
  | dots (ds : Text) (cells : Cells) (h : Denotes ds cells) : ShownAction ('@' :: ds) cells.toText
  | string (body s : Text) (h : StringSrc body s) : ShownAction ('"' :: body ++ ['"']) s
  | replace : ShownAction ['*'] ['*']
  | ignore : ShownAction ['?'] ['?']
  | assignment (ds es s t : Text) (hv : ShownNumber ds s) (hw : ShownNumber es t) :
      ShownAction ('#' :: ds ++ '=' :: es) ('#' :: s ++ '=' :: t)
  | swapClass (name : Text) : ShownAction ('%' :: name) ('%' :: name)

/-- One after the other. -/
inductive ShownActions : Text → Text → Prop
  | nil : ShownActions [] []
  | cons (src rest s t : Text) (h : ShownAction src s) (more : ShownActions rest t) : ShownActions (src ++ rest) (s ++ t)

/-- The letter that is shown for the letter of a class in a pattern.  (Sic: the letters of tests are shown, not those of patterns;
so `l`, which stands for small letters in a pattern, is shown as `u`, which stands for capitals there.) -/
def shownLetters : List (Char × Char) :=
  [('_', 's'), ('#', 'd'), ('a', 'l'), ('u', 'U'), ('l', 'u'), ('.', 'p'), ('$', 'S'), ('~', '~'), ('<', '<'), ('>', '>'),
   ('0', '0'), ('1', '1'), ('2', '2'), ('3', '3'), ('4', '4'), ('5', '5'), ('6', '6'), ('7', '7')]

/-- How an edge of a word is shown. -/
def shownEdge : Side → Char
  | .pre => '^'
  | .post => '$'

/-- How classes in a pattern are shown: the letters of `shownLetters`, each once, in any order; then the edge.  (Sic: without
`%` and brackets.) -/
def ShownClasses (side : Side) (cs s : Text) : Prop :=
  ∃ ds, Rearranged ((shownLetters.filter (·.1 ∈ cs)).map (·.2)) ds ∧ s = ds ++ (if '^' ∈ cs then [shownEdge side] else [])

mutual
/-- How a pattern is shown. -/
inductive ShownPattern (side : Side) : Text → Text → Prop
  | any : ShownPattern side ['.'] ['.']
  | boundary (c : Char) (h : c = '^' ∨ c = '$') : ShownPattern side [c] [shownEdge side]
  | attr (c : Char) (s : Text) (h : ShownClasses side [c] s) : ShownPattern side ['%', c] s
  | attrs (cs s : Text) (h : ShownClasses side cs s) : ShownPattern side ('%' :: '[' :: cs ++ [']']) s
  | set (body : Text) (cs ds : List Char) (h : SetSrc body cs) (hd : Rearranged cs ds) :
      ShownPattern side ('[' :: body ++ [']']) ('[' :: ds ++ [']'])
  | characters (s : Text) (hne : s ≠ []) (h : ∀ c ∈ s, isSpecial c = false) : ShownPattern side s s
  | group (src s : Text) (h : ShownPatterns side src s) : ShownPattern side ('(' :: src ++ [')']) ('(' :: s ++ [')'])
  | negate (src s : Text) (h : ShownPattern side src s) : ShownPattern side ('!' :: src) ('!' :: s)
  | quantified (src s : Text) (c : Char) (h : ShownPattern side src s) (hc : c ∈ ['?', '*', '+']) :
      ShownPattern side (src ++ [c]) (s ++ [c])
/-- One after the other, with a `|` between alternatives. -/
inductive ShownPatterns (side : Side) : Text → Text → Prop
  | nil : ShownPatterns side [] []
  | cons (src rest s t : Text) (h : ShownPattern side src s) (more : ShownPatterns side rest t) :
      ShownPatterns side (src ++ rest) (s ++ t)
  | alternative (src rest s t : Text) (h : ShownPatterns side src s) (more : ShownPatterns side rest t) :
      ShownPatterns side (src ++ '|' :: rest) (s ++ '|' :: t)
end

/-- How the operand of a match line is shown.  (Sic: a pattern that starts with a dash is shown as a dash.) -/
inductive ShownMatch (side : Side) : Text → Text → Prop
  | dash (w rest : Text) (h : Decodes .matchPattern w ('-' :: rest)) : ShownMatch side w ['-']
  | patterns (w t s : Text) (h : Decodes .matchPattern w t) (hd : t.head? ≠ some '-') (hs : ShownPatterns side t s) :
      ShownMatch side w s

/-- How an ordinary operand is shown: characters with their escapes decoded, cells as braille. -/
inductive ShownOperand : Text → Text → Prop
  /-- names, and `=` -/
  | same (w : Text) : ShownOperand w w
  | chars (w t : Text) (h : CharsSrc w t) : ShownOperand w t
  | cells (w : Text) (cs : Cells) (h : Denotes w cs) : ShownOperand w cs.toText

/-- Operand by operand. -/
inductive ShownOperands : List Text → List Text → Prop
  | nil : ShownOperands [] []
  | cons (w s : Text) (ws ss : List Text) (h : ShownOperand w s) (more : ShownOperands ws ss) : ShownOperands (w :: ws) (s :: ss)

/-- The opcodes with a test and an action. -/
def testOpcodes : List String := ["correct", "context", "pass2", "pass3", "pass4"]

/-- How the operands of a line are shown, depending on its opcode. -/
inductive ShownLine : Text → List Text → List Text → Prop
  | test (op v w s t : Text) (ho : op ∈ testOpcodes.map (·.toList)) (hv : ShownTests v s) (hw : ShownActions w t) :
      ShownLine op [v, w] [s, t]
  | «match» (u v w x s t y z : Text) (hu : ShownMatch .pre u s) (hv : CharsSrc v t) (hw : ShownMatch .post w y)
      (hx : ShownOperand x z) : ShownLine "match".toList [u, v, w, x] [s, t, y, z]
  | other (op : Text) (ws ss : List Text) (ho : op ∉ testOpcodes.map (·.toList)) (hm : op ≠ "match".toList)
      (h : ShownOperands ws ss) : ShownLine op ws ss

/-- A line that the translator takes no notice of. -/
def Rule.IsOther : Rule → Prop
  | .other _ => True
  | _ => False

/-- The words of a line, with its opcode, the operands and the rule it stands for (see `LineSrc`). -/
inductive LineReads : List Text → Text → List Text → Rule → Prop
  | intro (ps ws es rest : List Text) (op : Text) (operands : List Text) (cons : RuleCons) (withs : List WithClass) (r : Rule)
      (hp : ConsSrc ps cons) (hw : WithsSrc ws withs)
      (he : ∀ e ∈ es, e = "empmatchbefore".toList ∨ e = "empmatchafter".toList)
      (hb : RuleSrc cons withs (op :: operands) r) : LineReads (ps ++ (ws ++ (es ++ (op :: operands ++ rest)))) op operands r

/-- The line of the table that a translation comes from. -/
def FromLine (text : Text) (rules : List Anchored) (t : Resolved) (op : Text) (operands : List Text) : Prop :=
  ∃ r ∈ rules, t.origin = some r.origin ∧ ∃ line ∈ lines text, parseLine line = some r.rule ∧ LineReads (tokens line) op operands r.rule

/-- What the stages are called in the last column. -/
def stageNamed : Stage → String
  | .pre => "Pre"
  | .main => "Main"
  | .post1 => "Pass2"
  | .post2 => "Pass3"
  | .post3 => "Pass4"

/-- A row of the trace. -/
inductive RowShown (text : Text) (rules : List Anchored) : Nat × Resolved → TraceRow → Prop
  | silent (n : Nat) (t : Resolved) (h : t.origin = none) : RowShown text rules (n, t) ⟨n, t.input, t.output, [], (stageNamed t.stage).toList⟩
  | line (n : Nat) (t : Resolved) (op : Text) (operands ss : List Text) (h : FromLine text rules t op operands)
      (hop : op ∉ unshownOpcodes.map (·.toList)) (hs : ShownLine op operands ss) :
      RowShown text rules (n, t) ⟨n, t.input, t.output, [' '].intercalate (op :: ss), (stageNamed t.stage).toList⟩

/-- Row by row. -/
inductive RowsShown (text : Text) (rules : List Anchored) : List (Nat × Resolved) → List TraceRow → Prop
  | nil : RowsShown text rules [] []
  | cons (t : Nat × Resolved) (row : TraceRow) (ts : List (Nat × Resolved)) (rows : List TraceRow)
      (h : RowShown text rules t row) (more : RowsShown text rules ts rows) :
      RowsShown text rules (t :: ts) (row :: rows)

end Louis
