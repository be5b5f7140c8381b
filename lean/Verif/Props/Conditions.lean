import Verif.Props.ExplainedMain

/-!
# C47, C57: rules are used only where their opcode and their class conditions allow it
-/

namespace Louis

/-- No two lines of the table have the same number. -/
def DistinctIds (rules : List Anchored) : Prop := ∀ r ∈ rules, ∀ r' ∈ rules, r.id = r'.id → r = r'

theorem zipIdx_distinct {α : Type} : ∀ (l : List α) (n : Nat) (x y : α × Nat), x ∈ l.zipIdx n → y ∈ l.zipIdx n → x.2 = y.2 → x = y := by
  intro l n x y hx hy e
  obtain ⟨a, i⟩ := x
  obtain ⟨b, j⟩ := y
  simp only at e
  subst e
  rw [List.mk_mem_zipIdx_iff_le_and_getElem?_sub] at hx hy
  rw [hx.2] at hy
  have := hy.2
  injection this with this
  rw [this]

/-- The lines of a parsed table have distinct numbers. -/
theorem anchor_distinct (rules : List (Rule × Loc)) : DistinctIds (anchor rules) := by
  intro r hr r' hr' e
  obtain ⟨x, hx, rfl⟩ := List.mem_map.mp hr
  obtain ⟨y, hy, rfl⟩ := List.mem_map.mp hr'
  rw [zipIdx_distinct rules 0 x y hx hy e]

theorem DistinctIds.allowed {rules : List Anchored} (h : DistinctIds rules) (d : Direction) : DistinctIds (allowedRules rules d) :=
  fun r hr r' hr' e => h r (mem_allowed.mp hr).1 r' (mem_allowed.mp hr').1 e

theorem DistinctIds.origin {rules : List Anchored} (h : DistinctIds rules) {r r' : Anchored} (hr : r ∈ rules) (hr' : r' ∈ rules)
    (e : (some r'.origin : Option Origin) = some r.origin) : r' = r := by
  injection e with e
  refine h r' hr' r hr ?_
  have := congrArg Origin.id e
  exact this

/-- **C57.** The line of the table a piece refers to is the one that explains it: its characters (backward: its cells)
stand in the text here, its opcode and its class conditions allow the neighbouring characters, and its braille (backward: its
characters) was written. -/
theorem C57_line_explains (sys : Sys) (ctx : TableCtx) (d : Direction) (rules : List Anchored) (hids : DistinctIds rules)
    (p : Primary) (h : MainStage sys ctx d rules p) (cs : Case) (input : Text) (spans : List Span) (ts : List Resolved)
    (ht : p.Traces cs input spans ts) (done : List Resolved) (tr : Resolved) (rest : List Resolved)
    (e : ts = done ++ tr :: rest) (r : Anchored) (hr : r ∈ rules) (ho : tr.origin = some r.origin) :
    Explained ctx d cs [r] input done tr := by
  have hm : ∀ {r' : Anchored}, r' ∈ rules → tr.origin = some r'.origin → r' ∈ [r] := by
    intro r' h1 h2
    rw [hids.origin hr h1 (h2.symm.trans ho)]
    exact List.mem_singleton.mpr rfl
  have hex := C56_main_stage_explained sys ctx d rules p h cs input spans ts ht done tr rest e
  cases hex with
  | sign r' dots h1 h2 h3 => exact .sign r' dots (hm h1 (by rw [h3]; rfl)) h2 h3
  | rule r' chars' dots written consumed tail h1 h2 h3 h4 h5 h6 h7 h8 =>
    exact .rule r' chars' dots written consumed tail (hm h1 h2) h2 h3 h4 h5 h6 h7 h8
  | backSign r' dots consumed tail h1 h2 h3 h4 h5 h6 h7 h8 =>
    exact .backSign r' dots consumed tail h1 (hm h2 h4) h3 h4 h5 h6 h7 h8
  | matched r' pre chars' post b' cons' dots h1 h2 h3 h4 h5 h6 h7 =>
    exact .matched r' pre chars' post b' cons' dots (hm h1 h2) h2 h3 h4 h5 h6 h7
  | context r' test action cons' h1 h2 h3 h0 h4 => exact .context r' test action cons' (hm h1 h2) h2 h3 h0 h4
  | undefined c tail h1 => rw [ho] at h1; cases h1

/-- **C57.** A piece written by the main stage on behalf of a text rule of the table stands where the opcode of the rule
admits it: the characters the rule reads stand in the text here, and the neighbouring characters are those the opcode asks
for (the character before is the last one the pieces written so far were reported for).  The braille is that of the rule. -/
theorem C57_text_rule_placed (sys : Sys) (ctx : TableCtx) (d : Direction) (rules : List Anchored) (hids : DistinctIds rules)
    (p : Primary) (h : MainStage sys ctx d rules p) (cs : Case) (input : Text) (spans : List Span) (ts : List Resolved)
    (ht : p.Traces cs input spans ts) (done : List Resolved) (tr : Resolved) (rest : List Resolved)
    (e : ts = done ++ tr :: rest) (r : Anchored) (hr : r ∈ rules) (ho : tr.origin = some r.origin)
    (k : TextKind) (chars : Text) (b : Braille) (rcons : RuleCons) (withs : List WithClass)
    (hk : r.rule = .text k chars b rcons withs) :
    ∃ dots written consumed tail, BrailleOf ctx.defs chars b dots ∧ Reading.dir d chars dots tr.input written ∧
      MaybeCapital cs d written tr.output ∧ input.drop (coveredBy done) = consumed ++ tail ∧
      (consumed = tr.input ∨ Spells cs.lower consumed tr.input) ∧
      k.Here (ctx.neighbours d) (done.flatMap (·.input)).getLast? tail.head? ∧
      ∀ w ∈ withs, ctx.classes.get (CharClass.ofName w.name) ≠ none →
        w.Here (ctx.neighbours d) (done.flatMap (·.input)).getLast? tail.head? := by
  have hex := C56_main_stage_explained sys ctx d rules p h cs input spans ts ht done tr rest e
  cases hex with
  | sign r' dots h1 h2 h3 =>
    rw [h3] at ho
    have := hids.origin hr h1 ho
    rw [this, hk] at h2
    cases h2
  | rule r' chars' dots written consumed tail h1 h2 h3 h4 h5 h6 h7 h8 =>
    have := hids.origin hr h1 (h2.symm.trans ho)
    subst this
    rw [hk] at h5 h6
    cases h5 with
    | text g1 g2 => exact ⟨dots, written, consumed, tail, g1, h7, h8, h3, h4, g2, h6⟩
  | backSign r' dots consumed tail h1 h2 h3 h4 =>
    have := hids.origin hr h2 (h4.symm.trans ho)
    rw [this, hk] at h3
    cases h3
  | matched r' pre chars' post b' cons' dots h1 h2 h3 =>
    have := hids.origin hr h1 (h2.symm.trans ho)
    rw [this, hk] at h3
    cases h3
  | context r' test action cons' h1 h2 h3 =>
    have := hids.origin hr h1 (h2.symm.trans ho)
    rw [this, hk] at h3
    cases h3
  | undefined c tail h1 => rw [ho] at h1; cases h1

/-- **C47**, the part that is true of the code: a rule written with `before CLASS` or `after CLASS` is used only where the
neighbouring character is in the class, if the class has a member.  (Missing: classes without members, and the class names
`litdigit` and `math`; there the property is false, see `C47_undefined_class_wrong` and the theorems after it.) -/
theorem C47_condition_holds_partial (sys : Sys) (ctx : TableCtx) (d : Direction) (rules : List Anchored) (hids : DistinctIds rules)
    (p : Primary) (h : MainStage sys ctx d rules p) (cs : Case) (input : Text) (spans : List Span) (ts : List Resolved)
    (ht : p.Traces cs input spans ts) (done : List Resolved) (tr : Resolved) (rest : List Resolved)
    (e : ts = done ++ tr :: rest) (r : Anchored) (hr : r ∈ rules) (ho : tr.origin = some r.origin)
    (k : TextKind) (chars : Text) (b : Braille) (rcons : RuleCons) (withs : List WithClass)
    (hk : r.rule = .text k chars b rcons withs) (name : Text) (hmem : ∃ c, ctx.classes.has (CharClass.ofName name) c = true) :
    (WithClass.after name ∈ withs → NeighbourIn (ctx.neighbours d) [CharClass.ofName name] (done.flatMap (·.input)).getLast?) ∧
    (WithClass.before name ∈ withs →
      NeighbourIn (ctx.neighbours d) [CharClass.ofName name] (input.drop (coveredBy (done ++ [tr]))).head?) := by
  obtain ⟨dots, written, consumed, tail, -, -, -, h1, h2, -, h3⟩ :=
    C57_text_rule_placed sys ctx d rules hids p h cs input spans ts ht done tr rest e r hr ho k chars b rcons withs hk
  have hne : ctx.classes.get (CharClass.ofName name) ≠ none := by
    obtain ⟨c, hc⟩ := hmem
    unfold CharClasses.has at hc
    unfold CharClasses.get
    intro hn
    split at hn
    · next hf =>
      rw [List.filter_eq_nil_iff] at hf
      exact hf _ (List.contains_iff_mem.mp hc) (by simp)
    · cases hn
  have hlen : consumed.length = tr.input.length := by
    rcases h2 with rfl | h2
    · rfl
    · exact (show Reported cs.lower consumed tr.input from .inr h2).length
  have htail : input.drop (coveredBy (done ++ [tr])) = tail := by
    have : coveredBy (done ++ [tr]) = coveredBy done + consumed.length := by
      unfold coveredBy
      rw [List.flatMap_append, List.length_append, hlen]
      simp
    rw [this, ← List.drop_drop, h1, List.drop_left]
  refine ⟨fun hw => h3 _ hw hne, fun hw => ?_⟩
  rw [htail]
  exact h3 _ hw hne

/-- **C47 is false of the code**: a condition on a class that is not defined is ignored. -/
theorem C47_undefined_class_wrong : SourceTranslates demoSys ascii "letter a 1
letter b 12
letter c 14
before foo always ab 123".toList .forward [] "abc".toList "⠇⠉".toList :=
  runSource_sound (fuel := 40) (by decide +kernel)

/-- It is ignored, too, if the class is defined with the opcode `class`, even where the neighbour is not a member. -/
theorem C47_class_opcode_wrong : SourceTranslates demoSys ascii "letter a 1
letter b 12
letter c 14
class foo a
before foo always ab 123".toList .forward [] "abc".toList "⠇⠉".toList :=
  runSource_sound (fuel := 40) (by decide +kernel)

/-- A condition on the predefined class `litdigit` is ignored, although the class has a member. -/
theorem C47_litdigit_wrong : SourceTranslates demoSys ascii "letter a 1
letter b 12
letter c 14
litdigit 1 1
before litdigit always ab 123".toList .forward [] "abc".toList "⠇⠉".toList :=
  runSource_sound (fuel := 40) (by decide +kernel)

/-- A condition on the predefined class `math` is ignored, although the class has a member. -/
theorem C47_math_wrong : SourceTranslates demoSys ascii "letter a 1
letter b 12
letter c 14
math + 235
before math always ab 123".toList .forward [] "abc".toList "⠇⠉".toList :=
  runSource_sound (fuel := 40) (by decide +kernel)

/-- With a class that has members the condition counts; and a `word` rule is used only for the whole word. -/
def conditionsTable : Text := "letter a 1
letter b 12
letter c 14
sign + 235
after sign always ab 123
attribute foo c
before foo always bb 23
word ac 2
space \\s 0
always ba 3".toList

example : SourceTranslates demoSys ascii conditionsTable .forward [] "ab+ab bbcbba ac".toList "⠁⠃⠖⠇⠀⠆⠉⠃⠄⠀⠂".toList :=
  runSource_sound (fuel := 60) (by decide +kernel)

/-- The table is accepted, with one rule per line, which have distinct numbers. -/
example : (parseTable conditionsTable none).toOption.map (·.length) = some 10 := by decide +kernel

end Louis
