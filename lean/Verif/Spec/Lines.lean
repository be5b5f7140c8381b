import Verif.Spec.Operand
import Verif.Model.Table

/-!
# The grammar of a line of a table

`LineSrc words r`: the words of a line stand for the rule `r`.  Read as in the liblouis manual: possibly `nofor` or
`noback`, possibly `nocross`, any number of `before CLASS` and `after CLASS`, any number of `empmatchbefore` and
`empmatchafter`, an opcode, its operands, and then anything (the rest of the line is a comment).
The parser accepts exactly this grammar (`C58_line_grammar`).
-/

namespace Louis

/-! ## Operands -/

/-- Characters, possibly with escapes. -/
def CharsSrc (w t : Text) : Prop := Decodes .default w t

/-- One character, possibly an escape. -/
def CharSrc (w : Text) (c : Char) : Prop := Decodes .default w [c]

/-- The letters and digits of which names consist. -/
def nameLetters : Text := "abcdefghijklmnopqrstuvwxyzABCDEFGHIJKLMNOPQRSTUVWXYZ0123456789".toList

/-- A name. -/
def NameSrc (w : Text) : Prop := ∀ c ∈ w, c ∈ nameLetters

/-- One cell. -/
def CellSrc (w : Text) (c : Cell) : Prop := Denotes w [c] ∧ '-' ∉ w

/-- Cells, or `=` for the cells of the characters. -/
inductive BrailleSrc : Text → Braille → Prop
  | same : BrailleSrc ['='] .implicit
  | cells (w : Text) (cs : Cells) (h : Denotes w cs) : BrailleSrc w (.explicit cs)

/-- A list separated by commas. -/
inductive ListSrc {α : Type} (item : Text → α → Prop) : Text → List α → Prop
  | last (w : Text) (a : α) (h : item w a) : ListSrc item w [a]
  | more (w rest : Text) (a : α) (as : List α) (h : item w a) (tail : ListSrc item rest as) :
      ListSrc item (w ++ ',' :: rest) (a :: as)

/-- A 32-bit integer. -/
inductive IntSrc : Text → Int → Prop
  | plain (ds : Text) (n : Nat) (hne : ds ≠ []) (h : DecValue ds n) (hn : n ≤ 2147483647) : IntSrc ds n
  | plus (ds : Text) (n : Nat) (hne : ds ≠ []) (h : DecValue ds n) (hn : n ≤ 2147483647) : IntSrc ('+' :: ds) n
  | minus (ds : Text) (n : Nat) (hne : ds ≠ []) (h : DecValue ds n) (hn : n ≤ 2147483648) : IntSrc ('-' :: ds) (-n)

/-- `before` or `after`. -/
inductive PositionSrc : Text → Bool → Prop
  | before : PositionSrc "before".toList true
  | after : PositionSrc "after".toList false

/-- An operand of `match`: escapes are decoded first. -/
def PatternsSrc (side : Side) (w : Text) (ps : List Pattern) : Prop := ∃ t, Decodes .matchPattern w t ∧ MatchSrc side t ps

/-! ## Opcodes by their operands -/

/-- Opcodes with dots. -/
def dotsOpcodes : List (String × (Cells → Rule)) :=
  [("undefined", .undefined), ("begcaps", .begcaps), ("endcaps", .endcaps), ("begcapsphrase", .begcapsphrase),
   ("letsign", .letsign), ("numsign", .numsign)]

/-- Opcodes with dots, possibly for one direction. -/
def dotsDirOpcodes : List (String × (Cells → RuleCons → Rule)) :=
  [("capsletter", .capsletter), ("begcapsword", .begcapsword), ("endcapsword", .endcapsword),
   ("nocontractsign", .nocontractsign), ("nonumsign", .nonumsign), ("begcomp", .begcomp), ("endcomp", .endcomp)]

/-- Opcodes with characters. -/
def charsOpcodes : List (String × (Text → Rule)) :=
  [("capsmodechars", .capsmodechars), ("noletsign", .noletsign), ("noletsignbefore", .noletsignbefore),
   ("noletsignafter", .noletsignafter), ("numericnocontchars", .numericnocontchars),
   ("numericmodechars", .numericmodechars), ("seqdelimiter", .seqdelimiter), ("seqbeforechars", .seqbeforechars),
   ("seqafterchars", .seqafterchars), ("contraction", .contraction),
   -- these have no effect
   ("midendnumericmodechars", fun _ => .other .none), ("seqafterpattern", fun _ => .other .none),
   ("seqafterexpression", fun _ => .other .none), ("nocont", fun _ => .other .none), ("replace", fun _ => .other .none),
   ("exactdots", fun _ => .other .none), ("literal", fun _ => .other .none)]

/-- Opcodes with a name and characters. -/
def nameCharsOpcodes : List (String × (Text → Text → Rule)) :=
  [("class", .cls), ("attribute", .attribute), ("noemphchars", .noemphchars), ("emphmodechars", .emphmodechars)]

/-- Opcodes with a name and dots. -/
def nameDotsOpcodes : List (String × (Text → Cells → Rule)) :=
  [("emphletter", .emphletter), ("begemphword", .begemphword), ("endemphword", .endemphword),
   ("begemphphrase", .begemphphrase),
   -- this has no effect
   ("begmodephrase", fun _ _ => .other .none)]

/-- Opcodes with a name and dots, possibly for one direction. -/
def nameDotsDirOpcodes : List (String × (Text → Cells → RuleCons → Rule)) :=
  [("begemph", .begemph), ("endemph", .endemph),
   -- these have no effect
   ("modeletter", fun _ _ c => .other c), ("begmodeword", fun _ _ c => .other c)]

/-- Opcodes with characters and dots. -/
def charsDotsOpcodes : List (String × (Text → Cells → Rule)) :=
  [("largesign", .largesign), ("joinword", .joinword),
   -- this has no effect
   ("repword", fun _ _ => .other .none)]

/-- Opcodes with characters and dots, possibly for one direction. -/
def charsDotsDirOpcodes : List (String × (Text → Cells → RuleCons → Rule)) :=
  [("lowword", .lowword),
   -- this has no effect
   ("repeated", fun _ _ c => .other c)]

/-- Opcodes with characters and dots, with any constraints. -/
def charsDotsAnyOpcodes : List (String × (Text → Cells → RuleCons → Rule)) :=
  [("prepunc", .prepunc), ("postpunc", .postpunc), ("begnum", .begnum), ("midnum", .midnum),
   -- this has no effect
   ("joinnum", fun _ _ c => .other c)]

/-- Opcodes with characters and dots or `=`. -/
def charsBrailleOpcodes : List (String × (Text → Braille → Rule)) := [("comp6", .comp6), ("syllable", .syllable)]

/-- The opcodes that define a character. -/
def charDefOpcodes : List (String × CharKind) :=
  [("space", .space), ("punctuation", .punctuation), ("digit", .digit), ("letter", .letter), ("lowercase", .lowercase),
   ("uppercase", .uppercase), ("litdigit", .litdigit), ("sign", .sign), ("math", .math), ("hyphen", .hyphen)]

/-- The opcodes that translate characters, except `word`. -/
def textOpcodes : List (String × TextKind) :=
  [("always", .always), ("sufword", .sufword), ("prfword", .prfword), ("begword", .begword),
   ("begmidword", .begmidword), ("midword", .midword), ("midendword", .midendword), ("endword", .endword),
   ("partword", .partword)]

/-- The opcodes with a test and an action. -/
def passOpcodes : List (String × PassKind) :=
  [("correct", .correct), ("context", .context), ("pass2", .pass2), ("pass3", .pass3), ("pass4", .pass4)]

/-! ## Rules -/

/-- The opcode and its operands stand for the rule, where `cons` and `withs` are the words before the opcode.
`cons = .none`: the opcode does not allow `nofor`, `noback` or `nocross`.  `cons.nocross = false`: it does not allow `nocross`. -/
inductive RuleSrc (cons : RuleCons) (withs : List WithClass) : List Text → Rule → Prop
  | incl (w : Text) (hc : cons = .none) : RuleSrc cons withs ["include".toList, w] (.incl w)
  | dots (op : String) (mk : Cells → Rule) (w : Text) (cells : Cells) (ho : (op, mk) ∈ dotsOpcodes)
      (h : Denotes w cells) (hc : cons = .none) : RuleSrc cons withs [op.toList, w] (mk cells)
  | dotsDir (op : String) (mk : Cells → RuleCons → Rule) (w : Text) (cells : Cells) (ho : (op, mk) ∈ dotsDirOpcodes)
      (h : Denotes w cells) (hc : cons.nocross = false) : RuleSrc cons withs [op.toList, w] (mk cells cons)
  | chars (op : String) (mk : Text → Rule) (w t : Text) (ho : (op, mk) ∈ charsOpcodes)
      (h : CharsSrc w t) (hc : cons = .none) : RuleSrc cons withs [op.toList, w] (mk t)
  | compbrl (w t : Text) (h : CharsSrc w t) (hc : cons.nocross = false) :
      RuleSrc cons withs ["compbrl".toList, w] (.compbrl t cons)
  | nameChars (op : String) (mk : Text → Text → Rule) (n w t : Text) (ho : (op, mk) ∈ nameCharsOpcodes)
      (hn : NameSrc n) (h : CharsSrc w t) (hc : cons = .none) : RuleSrc cons withs [op.toList, n, w] (mk n t)
  | nameDots (op : String) (mk : Text → Cells → Rule) (n w : Text) (cells : Cells) (ho : (op, mk) ∈ nameDotsOpcodes)
      (hn : NameSrc n) (h : Denotes w cells) (hc : cons = .none) : RuleSrc cons withs [op.toList, n, w] (mk n cells)
  | nameDotsDir (op : String) (mk : Text → Cells → RuleCons → Rule) (n w : Text) (cells : Cells)
      (ho : (op, mk) ∈ nameDotsDirOpcodes) (hn : NameSrc n) (h : Denotes w cells) (hc : cons.nocross = false) :
      RuleSrc cons withs [op.toList, n, w] (mk n cells cons)
  | charsDots (op : String) (mk : Text → Cells → Rule) (v w t : Text) (cells : Cells) (ho : (op, mk) ∈ charsDotsOpcodes)
      (ht : CharsSrc v t) (h : Denotes w cells) (hc : cons = .none) : RuleSrc cons withs [op.toList, v, w] (mk t cells)
  | charsDotsDir (op : String) (mk : Text → Cells → RuleCons → Rule) (v w t : Text) (cells : Cells)
      (ho : (op, mk) ∈ charsDotsDirOpcodes) (ht : CharsSrc v t) (h : Denotes w cells) (hc : cons.nocross = false) :
      RuleSrc cons withs [op.toList, v, w] (mk t cells cons)
  | charsDotsAny (op : String) (mk : Text → Cells → RuleCons → Rule) (v w t : Text) (cells : Cells)
      (ho : (op, mk) ∈ charsDotsAnyOpcodes) (ht : CharsSrc v t) (h : Denotes w cells) :
      RuleSrc cons withs [op.toList, v, w] (mk t cells cons)
  | charsBraille (op : String) (mk : Text → Braille → Rule) (v w t : Text) (b : Braille)
      (ho : (op, mk) ∈ charsBrailleOpcodes) (ht : CharsSrc v t) (h : BrailleSrc w b) (hc : cons = .none) :
      RuleSrc cons withs [op.toList, v, w] (mk t b)
  | endnum (v w t : Text) (b : Braille) (ht : CharsSrc v t) (h : BrailleSrc w b) :
      RuleSrc cons withs ["endnum".toList, v, w] (.endnum t b cons)
  | charDef (op : String) (k : CharKind) (v w : Text) (c : Char) (cells : Cells) (ho : (op, k) ∈ charDefOpcodes)
      (ht : CharSrc v c) (h : Denotes w cells) (hc : cons.nocross = false) :
      RuleSrc cons withs [op.toList, v, w] (.charDef k c cells cons)
  | text (op : String) (k : TextKind) (v w t : Text) (b : Braille) (ho : (op, k) ∈ textOpcodes) (ht : CharsSrc v t)
      (h : BrailleSrc w b) : RuleSrc cons withs [op.toList, v, w] (.text k t b cons withs)
  | word (v w t : Text) (b : Braille) (ht : CharsSrc v t) (h : BrailleSrc w b) (hc : cons.nocross = false) :
      RuleSrc cons withs ["word".toList, v, w] (.text .word t b cons withs)
  | display (v w : Text) (c : Char) (cell : Cell) (ht : CharSrc v c) (h : CellSrc w cell) (hc : cons.nocross = false) :
      RuleSrc cons withs ["display".toList, v, w] (.display c cell cons)
  | decpoint (v w : Text) (c : Char) (cells : Cells) (ht : CharSrc v c) (h : Denotes w cells) (hc : cons = .none) :
      RuleSrc cons withs ["decpoint".toList, v, w] (.decpoint c cells)
  | base (n v w : Text) (derived base : Char) (hn : NameSrc n) (hv : CharSrc v derived) (hw : CharSrc w base)
      (hc : cons = .none) : RuleSrc cons withs ["base".toList, n, v, w] (.base n derived base)
  | emphclass (n : Text) (hn : NameSrc n) (hc : cons = .none) : RuleSrc cons withs ["emphclass".toList, n] (.emphclass n)
  | endcapsphrase (p w : Text) (before : Bool) (cells : Cells) (hp : PositionSrc p before) (h : Denotes w cells)
      (hc : cons = .none) : RuleSrc cons withs ["endcapsphrase".toList, p, w] (.endcapsphrase cells before)
  | endemphphrase (n p w : Text) (before : Bool) (cells : Cells) (hn : NameSrc n) (hp : PositionSrc p before)
      (h : Denotes w cells) (hc : cons = .none) :
      RuleSrc cons withs ["endemphphrase".toList, n, p, w] (.endemphphrase n cells before)
  | lencapsphrase (w : Text) (i : Int) (h : IntSrc w i) (hc : cons = .none) :
      RuleSrc cons withs ["lencapsphrase".toList, w] (.lencapsphrase i)
  | lenemphphrase (n w : Text) (i : Int) (hn : NameSrc n) (h : IntSrc w i) (hc : cons = .none) :
      RuleSrc cons withs ["lenemphphrase".toList, n, w] (.lenemphphrase n i)
  | swapcd (n v w t : Text) (cells : List Cells) (hn : NameSrc n) (hv : CharsSrc v t) (hw : ListSrc Denotes w cells)
      (hl : t.length = cells.length) (hc : cons = .none) : RuleSrc cons withs ["swapcd".toList, n, v, w] (.swapcd n t cells)
  | swapdd (n v w : Text) (cells : Cells) (replacement : List Cells) (hn : NameSrc n) (hv : ListSrc CellSrc v cells)
      (hw : ListSrc Denotes w replacement) (hl : cells.length = replacement.length) (hc : cons = .none) :
      RuleSrc cons withs ["swapdd".toList, n, v, w] (.swapdd n cells replacement)
  | swapcc (n v w t replacement : Text) (hn : NameSrc n) (hv : CharsSrc v t) (hw : CharsSrc w replacement)
      (hl : t.length = replacement.length) (hc : cons = .none) :
      RuleSrc cons withs ["swapcc".toList, n, v, w] (.swapcc n t replacement)
  | pass (op : String) (k : PassKind) (v w : Text) (test : List TestInstr) (action : List ActionInstr)
      (ho : (op, k) ∈ passOpcodes) (hv : TestsSrc v test) (hv' : test ≠ []) (hw : ActionsSrc w action) (hw' : action ≠ [])
      (hc : cons.nocross = false) : RuleSrc cons withs [op.toList, v, w] (.pass k test action cons)
  | matchRule (u v w x t : Text) (pre post : List Pattern) (b : Braille) (hu : PatternsSrc .pre u pre) (hv : CharsSrc v t)
      (hw : PatternsSrc .post w post) (hx : BrailleSrc x b) (hc : cons.nocross = false) :
      RuleSrc cons withs ["match".toList, u, v, w, x] (.matchRule pre t post b cons)
  -- the following have no effect
  | multind (w a b : Text) (cells : Cells) (h : Denotes w cells) (hc : cons.nocross = false) :
      RuleSrc cons withs ["multind".toList, w, a, b] (.other cons)
  | grouping (n v w t : Text) (a b : Cell) (hn : NameSrc n) (hv : CharsSrc v t) (hw : ListSrc CellSrc w [a, b])
      (hc : cons.nocross = false) : RuleSrc cons withs ["grouping".toList, n, v, w] (.other .none)
  | endmodephrase (n p w : Text) (before : Bool) (cells : Cells) (hn : NameSrc n) (hp : PositionSrc p before)
      (h : Denotes w cells) (hc : cons = .none) : RuleSrc cons withs ["endmodephrase".toList, n, p, w] (.other .none)
  | lenmodephrase (n w : Text) (i : Int) (hn : NameSrc n) (h : IntSrc w i) (hc : cons = .none) :
      RuleSrc cons withs ["lenmodephrase".toList, n, w] (.other .none)
  | capsnocont (hc : cons = .none) : RuleSrc cons withs ["capsnocont".toList] (.other .none)
  | rependword (v w t : Text) (a b : Cells) (hv : CharsSrc v t) (hw : ListSrc Denotes w [a, b]) (hc : cons = .none) :
      RuleSrc cons withs ["rependword".toList, v, w] (.other .none)

/-! ## Lines -/

/-- `before CLASS` and `after CLASS`, any number of them. -/
inductive WithsSrc : List Text → List WithClass → Prop
  | nil : WithsSrc [] []
  | before (cls : Text) (ws : List Text) (cs : List WithClass) (more : WithsSrc ws cs) :
      WithsSrc ("before".toList :: cls :: ws) (.before cls :: cs)
  | after (cls : Text) (ws : List Text) (cs : List WithClass) (more : WithsSrc ws cs) :
      WithsSrc ("after".toList :: cls :: ws) (.after cls :: cs)

/-- `nofor` or `noback` or nothing, then `nocross` or nothing. -/
inductive ConsSrc : List Text → RuleCons → Prop
  | intro (dir cross : List Text) (nofor noback nocross : Bool)
      (hd : (dir, nofor, noback) ∈ [([], false, false), (["nofor".toList], true, false), (["noback".toList], false, true)])
      (hc : (cross, nocross) ∈ [([], false), (["nocross".toList], true)]) :
      ConsSrc (dir ++ cross) ⟨nofor, noback, nocross⟩

/-- The words of a line stand for a rule. -/
inductive LineSrc : List Text → Rule → Prop
  | intro (ps ws es body rest : List Text) (cons : RuleCons) (withs : List WithClass) (r : Rule)
      (hp : ConsSrc ps cons) (hw : WithsSrc ws withs)
      (he : ∀ e ∈ es, e = "empmatchbefore".toList ∨ e = "empmatchafter".toList)
      (hb : RuleSrc cons withs body r) : LineSrc (ps ++ (ws ++ (es ++ (body ++ rest)))) r

end Louis
