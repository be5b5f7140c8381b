import Verif.Props.Gates
import Verif.Props.BackwardTrace
import Verif.Props.Demo

/-!
# C62, backward translation: capitals and digits, from the lines of the table
-/

namespace Louis

/-! ## Specification -/

/-- The signs of capitals as backward translation knows them: of every opcode the last line whose dots are not those of a letter. -/
def backCaps (sys : Sys) (ctx : TableCtx) (rules : List Anchored) : CapsDots where
  capsletter := backDots (fun | .capsletter dots _ => some dots | _ => none) (letterDotsOf .backward rules) rules
  begcapsword := backDots (fun | .begcapsword dots _ => some dots | _ => none) (letterDotsOf .backward rules) rules
  endcapsword := backDots (fun | .endcapsword dots _ => some dots | _ => none) (letterDotsOf .backward rules) rules
  letters := letterCells sys ctx rules

/-- The number signs as backward translation knows them. -/
def backNumbers (sys : Sys) (ctx : TableCtx) (rules : List Anchored) : NumDots where
  numsign := backDots (fun | .numsign dots => some dots | _ => none) (letterDotsOf .backward rules) rules
  nonumsign := backDots (fun | .nonumsign dots _ => some dots | _ => none) (letterDotsOf .backward rules) rules
  digits := ctx.dots.members .digit ++ ctx.dots.members .litdigit
  letters := letterCells sys ctx rules

/-- The position is a letter of a capitalised word in the reading of the braille. -/
def InCapitalWord (d : CapsDots) (text : Text) (pos : Nat) : Prop :=
  ∃ ts, CapsReading d text ts ∧ ∃ x ls closed y, ts = x ++ .word ls closed :: y ∧
    (capsText d x).length + (d.begcapsword.getD []).length ≤ pos ∧
    pos < (capsText d x).length + (d.begcapsword.getD []).length + ls.length

/-- The position is directly after the sign of a single capital in the reading of the braille. -/
def AfterCapitalSign (d : CapsDots) (text : Text) (pos : Nat) : Prop :=
  pos < text.length ∧ ∃ ts, CapsReading d text ts ∧ ∃ x y, ts = x ++ .mark :: y ∧ pos = (capsText d (x ++ [.mark])).length

/-- The position is a digit in the reading of the braille. -/
def DigitCell (d : NumDots) (text : Text) (pos : Nat) : Prop :=
  ∃ ts, NumReading d text ts ∧ ∃ x c y, ts = x ++ .digit c :: y ∧ pos = (numText d x).length

/-- The digit a cell stands for in a number, and the line that says so: the last `digit` or `litdigit` line with that cell alone,
if the cell also stands for a letter. -/
def digitReading (rules : List Anchored) (c : Char) : Option (Char × Origin) :=
  latest (fun r => match r.rule with
    | .charDef k ch [cell] _ =>
      if (k = .digit ∨ k = .litdigit) ∧ cell.toUnicode = c ∧ [c] ∈ letterDotsOf .backward rules then some (ch, r.origin) else none
    | _ => none) rules

/-- The main stage without the signs of capitals. -/
def Primary.noCapitals (p : Primary) : Primary := { p with constrainers := { p.constrainers with caps := none } }

/-! ## Proofs -/

theorem backCaps_unused (d : CapsDots) (h1 : d.capsletter = none) (h2 : d.begcapsword = none) {text : Text} {ts : List CapsTok}
    (h : CapsReading d text ts) : (∀ ls closed, .word ls closed ∉ ts) ∧ .mark ∉ ts := by
  constructor
  · intro ls closed hm
    obtain ⟨x, y, rfl⟩ := List.append_of_mem hm
    exact (h.right x _ y rfl).1 h2
  · intro hm
    obtain ⟨x, y, rfl⟩ := List.append_of_mem hm
    exact (h.right x _ y rfl).1 h1

/-- The flags of backward translation. -/
theorem precompute_backward {c : Constrainers} {text : Text} {spans : List Span} {cons : Constraints}
    (e : c.precompute text spans = .ok cons) (wf1 : ∀ d, c.caps = some d → d.Wf) (wf2 : ∀ d, c.backNumeric = some d → d.Wf)
    (pos : Nat) :
    (cons.uppercase pos = true ↔ ∃ d, c.caps = some d ∧ InCapitalWord d text pos) ∧
    (cons.titlecase pos = true ↔ ∃ d, c.caps = some d ∧ AfterCapitalSign d text pos) ∧
    (cons.preferDigit pos = true ↔ ∃ d, c.backNumeric = some d ∧ DigitCell d text pos) := by
  obtain ⟨comp6, h1, -, -⟩ := C22_computer_braille_spans text spans
  have no : flagAt (List.replicate text.length false) pos = false := by
    unfold flagAt
    rw [List.getElem?_replicate]
    split <;> rfl
  unfold Constrainers.precompute at e
  simp only [h1] at e
  split at e
  · cases e
  · rename_i upper title hcaps
    split at e
    · cases e
    · rename_i prefer hnum
      split at e
      · cases e
      · injection e with e
        subst e
        simp only
        have hc : (flagAt upper pos = true ↔ ∃ d, c.caps = some d ∧ InCapitalWord d text pos) ∧
            (flagAt title pos = true ↔ ∃ d, c.caps = some d ∧ AfterCapitalSign d text pos) := by
          cases hc : c.caps with
          | none => rw [hc] at hcaps; cases hcaps; simp [no]
          | some d =>
            rw [hc] at hcaps
            obtain ⟨u, t, ts, g1, -, -, g2, g3, g4, g5⟩ := C40_capital_words d (wf1 d hc) text
            simp only [g1] at hcaps
            cases hcaps
            simp only [Option.some.injEq, exists_eq_left']
            refine ⟨(g4 pos).trans ⟨fun h => ⟨ts, g2, h⟩, ?_⟩, (g5 pos).trans ⟨fun h => ⟨h.1, ts, g2, h.2⟩, ?_⟩⟩
            · rintro ⟨ts', h, h'⟩
              rw [g3 ts' h] at h'
              exact h'
            · rintro ⟨h0, ts', h, h'⟩
              rw [g3 ts' h] at h'
              exact ⟨h0, h'⟩
        refine ⟨hc.1, hc.2, ?_⟩
        cases hc : c.backNumeric with
        | none => rw [hc] at hnum; cases hnum; simp [no]
        | some d =>
          rw [hc] at hnum
          obtain ⟨flags, ts, g1, -, g2, g3, g4⟩ := C40_digits_after_sign d (wf2 d hc) text
          simp only [g1] at hnum
          cases hnum
          simp only [Option.some.injEq, exists_eq_left']
          refine (g4 pos).trans ⟨fun h => ⟨ts, g2, h⟩, ?_⟩
          rintro ⟨ts', h, h'⟩
          rw [g3 ts' h] at h'
          exact h'

/-- The constraints without capital marks are those of the stage without the signs of capitals. -/
theorem precompute_noCapitals {c : Constrainers} {text : Text} {spans : List Span} {cons : Constraints}
    (e : c.precompute text spans = .ok cons) : ({ c with caps := none } : Constrainers).precompute text spans = .ok cons.caseless := by
  have no : flagAt (List.replicate text.length false) = fun _ => false := by
    funext pos
    unfold flagAt
    rw [List.getElem?_replicate]
    split <;> rfl
  unfold Constrainers.precompute at e ⊢
  simp only at e ⊢
  split at e
  · cases e
  · split at e
    · cases e
    · split at e
      · cases e
      · split at e
        · cases e
        · injection e with e
          subst e
          simp only [Constraints.caseless, no]

section

variable {sys : Sys} {ctx : TableCtx} {rules : List Anchored} {p : Primary} {cs : Case} {text : Text}
  {spans : List Span} {ts : List Resolved}

theorem flags_backward (h : MainStage sys ctx .backward rules p) {en : List Span} {cons : Constraints}
    (e : p.constrainers.precompute text en = .ok cons) (pos : Nat) :
    (cons.uppercase pos = true ↔ InCapitalWord (backCaps sys ctx rules) text pos) ∧
    (cons.titlecase pos = true ↔ AfterCapitalSign (backCaps sys ctx rules) text pos) ∧
    (cons.preferDigit pos = true ↔ DigitCell (backNumbers sys ctx rules) text pos) := by
  obtain ⟨h1, h2, h3⟩ := precompute_backward e h.constrainers.1 h.constrainers.2.1 pos
  have hc : p.constrainers.caps = if (backCaps sys ctx rules).capsletter = none ∧ (backCaps sys ctx rules).begcapsword = none
      then none else some (backCaps sys ctx rules) := by rw [C61_constraints_backward h]; rfl
  have hn : p.constrainers.backNumeric = if (backNumbers sys ctx rules).numsign = none then none else some (backNumbers sys ctx rules) := by
    rw [C61_constraints_backward h]; rfl
  rw [h1, h2, h3, hc, hn]
  refine ⟨?_, ?_, ?_⟩
  · split
    · rename_i hu
      refine ⟨fun ⟨_, h, _⟩ => (nomatch h), ?_⟩
      rintro ⟨ts, hr, x, ls, closed, y, rfl, -⟩
      exact absurd (by simp) ((backCaps_unused _ hu.1 hu.2 hr).1 ls closed)
    · simp only [Option.some.injEq, exists_eq_left']
  · split
    · rename_i hu
      refine ⟨fun ⟨_, h, _⟩ => (nomatch h), ?_⟩
      rintro ⟨-, ts, hr, x, y, rfl, -⟩
      exact absurd (by simp) (backCaps_unused _ hu.1 hu.2 hr).2
    · simp only [Option.some.injEq, exists_eq_left']
  · split
    · rename_i hu
      refine ⟨fun ⟨_, h, _⟩ => (nomatch h), ?_⟩
      rintro ⟨ts, hr, x, c, y, rfl, -⟩
      obtain ⟨-, ⟨a, b, rfl, -⟩, -⟩ := hr.right x _ y rfl
      obtain ⟨s, hs, -⟩ := hr.right a .sign (b ++ .digit c :: y) (by simp)
      rw [hu] at hs
      cases hs
    · simp only [Option.some.injEq, exists_eq_left']

/-- **C62**, capitals: what backward translation writes is what the same table writes without its signs of capitals, with
everything in capitalised words and the first character after the sign of a single capital in upper case. -/
theorem C62_capitals_backward (h : MainStage sys ctx .backward rules p) (ht : p.Traces cs text spans ts) :
    ∃ ts₀ cons ind, p.noCapitals.Traces cs text spans ts₀ ∧
      (∀ pos, cons.uppercase pos = true ↔ InCapitalWord (backCaps sys ctx rules) text pos) ∧
      (∀ pos, cons.titlecase pos = true ↔ AfterCapitalSign (backCaps sys ctx rules) text pos) ∧
      (∀ pos, ∀ r ∈ ind pos, ∃ q ∈ rules, ∃ dots, q.rule.sign? = some dots ∧ r = indication dots.toText q.origin) ∧
      Recased cs cons ind 0 ts₀ ts := by
  obtain ⟨en, cons, ind, h1, h2, h3, h4⟩ := ht
  obtain ⟨ts₀, h5, h6⟩ := C40_capitals_only_change_case _ _ _ h.built cs cons _ (h.ind_empty h3) text ts h4
  refine ⟨ts₀, cons, _, ⟨en, cons.caseless, ind, h1, precompute_noCapitals h2, h3, h5⟩, fun pos => (flags_backward h h2 pos).1,
    fun pos => (flags_backward h h2 pos).2.1, fun pos r hr => ?_, h6⟩
  exact h.signs r (precompute_signs _ _ _ _ _ h3 pos r hr)

/-- The digit readings among the operations. -/
def digitEntry : PrimOp → Option (Char × Resolved)
  | .digitOverride cell ch o => some (cell, Resolved.new [cell] [ch] 1 .main (some o))
  | _ => none

theorem applyAll_digits {ctx : PrimCtx} : ∀ {ops : List PrimOp} {t t' : PrimaryTable}, PrimaryTable.applyAll ctx ops t = .ok t' →
    t'.digitOverrides = (ops.filterMap digitEntry).reverse ++ t.digitOverrides
  | [], t, t', h => by cases h; rfl
  | op :: ops, t, t', h => by
    unfold PrimaryTable.applyAll at h
    split at h
    · cases h
    · rename_i t₁ h₁
      rw [applyAll_digits h]
      have : t₁.digitOverrides = (digitEntry op).toList ++ t.digitOverrides := by
        unfold PrimaryTable.apply at h₁
        repeat' (split at h₁)
        all_goals first | (cases h₁; done) | (cases h₁; rfl)
      rw [this]
      cases he : digitEntry op <;> simp [he]

theorem firstOps_digits (r : Anchored) : r.firstOps.filterMap digitEntry = [] := by
  unfold Anchored.firstOps
  split <;> rfl

/-- The digit reading a rule gives. -/
def ruleDigit (D : List Text) (r : Anchored) : Option (Char × Resolved) :=
  match r.rule with
  | .charDef k ch [cell] _ =>
    if (k = .digit ∨ k = .litdigit) ∧ [cell.toUnicode] ∈ D then
      some (cell.toUnicode, Resolved.new [cell.toUnicode] [ch] 1 .main (some r.origin)) else none
  | _ => none

theorem opsD_digits (ctx : TableCtx) (L : List Char) (D : List Text) (r : Anchored) :
    (r.opsD ctx .backward L D).filterMap digitEntry = (ruleDigit D r).toList := by
  have none : ∀ l : List PrimOp, (∀ op ∈ l, digitEntry op = none) → l.filterMap digitEntry = [] := by
    intro l h
    rw [List.filterMap_eq_nil_iff]
    exact h
  have dig : ∀ k c (dots : Cells) cons, (k = .digit ∨ k = .litdigit) → r.rule = .charDef k c dots cons →
      (r.digitOps .backward D c dots).filterMap digitEntry = (ruleDigit D r).toList := by
    intro k c dots cons hk hr
    unfold ruleDigit Anchored.digitOps
    rw [hr]
    match dots with
    | [] => rfl
    | [cell] =>
      simp only [hk, true_and, List.contains_iff_mem]
      split <;> rfl
    | _ :: _ :: _ => rfl
  obtain ⟨rule, id⟩ := r
  unfold Anchored.opsD
  cases rule
  case charDef k c dots cons =>
    cases k
    case digit =>
      simp only [Anchored.ops, okOf, Option.getD_some, List.filterMap_append, dig _ _ _ _ (.inl rfl) rfl]
      split <;> rfl
    case litdigit =>
      have := dig .litdigit c dots cons (.inr rfl) rfl
      simp only [Anchored.ops, okOf, Option.getD_some, List.filterMap_cons, this]
      rfl
    all_goals
      unfold ruleDigit
      match dots with
      | [] => rfl
      | [cell] => simp [Anchored.ops, okOf, digitEntry]
      | _ :: _ :: _ => rfl
  all_goals
    show _ = []
    apply none
    intro op hop
    cases h : Anchored.ops ctx .backward L D ⟨_, id⟩ with
    | error e => rw [h] at hop; cases hop
    | ok ops =>
      rw [h] at hop
      have := ops_shape h op hop
      cases op <;> first | rfl | (obtain ⟨_, _, _, _, h⟩ := this; cases h)

theorem flatMap_toList_digits {α β : Type} (f : α → Option β) (l : List α) : l.flatMap (fun a => (f a).toList) = l.filterMap f := by
  induction l with
  | nil => rfl
  | cons a l ih =>
    rw [List.flatMap_cons, ih, List.filterMap_cons]
    cases f a <;> rfl

/-- The digit every cell stands for is the one the lines of the table give. -/
theorem C62_digit_readings (h : MainStage sys ctx .backward rules p) (c : Char) :
    assoc c p.table.digitOverrides = (digitReading rules c).map fun x => Resolved.new [c] [x.1] 1 .main (some x.2) := by
  obtain ⟨t₀, h1, h2⟩ := h.built
  have h3 : p.table.digitOverrides = t₀.digitOverrides := by rw [h2.others]
  rw [h3, applyAll_digits h1]
  unfold tableOps
  have e : ((rules.flatMap (·.firstOps) ++ rules.flatMap fun r =>
      r.opsD ctx .backward (litdigitChars .backward rules) (letterDotsOf .backward rules)).filterMap digitEntry) =
      rules.filterMap (ruleDigit (letterDotsOf .backward rules)) := by
    rw [List.filterMap_append, List.filterMap_flatMap, List.filterMap_flatMap]
    simp only [firstOps_digits, opsD_digits, flatMap_toList_digits]
    simp
  rw [e]
  unfold digitReading
  generalize letterDotsOf .backward rules = D
  have hn : (PrimaryTable.new .backward (ctx.prim .backward)).digitOverrides = [] := rfl
  rw [hn, List.append_nil]
  clear e h h1 h2 h3 t₀
  rw [← List.reverse_reverse rules]
  generalize rules.reverse = rs
  induction rs with
  | nil => rfl
  | cons r rs ih =>
    rw [List.reverse_cons, latest_snoc, List.filterMap_append, List.reverse_append]
    have key : ∀ (o : Option (Char × Resolved)) (l : List (Char × Resolved)), assoc c (o.toList.reverse ++ l) =
        (match o with | some x => if x.1 = c then some x.2 else assoc c l | none => assoc c l) := by
      intro o l
      cases o with
      | none => rfl
      | some x =>
        simp only [Option.toList_some, List.reverse_singleton, List.singleton_append, assoc, List.find?_cons]
        split
        · rename_i hx; rw [if_pos (by simpa using hx)]; rfl
        · rename_i hx; rw [if_neg (by simpa using hx)]
    have e1 : List.filterMap (ruleDigit D) [r] = (ruleDigit D r).toList := by
      rw [List.filterMap_cons]; cases ruleDigit D r <;> rfl
    rw [e1, key, ih]
    obtain ⟨rule, id⟩ := r
    cases rule
    case charDef k ch dots cons =>
      match dots with
      | [] => rfl
      | [cell] =>
        unfold ruleDigit
        simp only
        by_cases h1 : k = .digit ∨ k = .litdigit
        · by_cases h2 : cell.toUnicode = c
          · subst h2
            by_cases h3 : [cell.toUnicode] ∈ D
            · simp [h1, h3]
            · simp [h3]
          · simp only [h1, h2, true_and, false_and, and_false, if_false, Option.none_or]
            by_cases h3 : [cell.toUnicode] ∈ D
            · simp only [h3, if_true, h2, if_false]
            · simp only [h3, if_false]
        · simp [h1]
      | _ :: _ :: _ => rfl
    all_goals rfl

/-- **C62**, digits: at a cell read as a digit, outside computer braille, for which the table has a digit, backward translation
writes a sign, or what a `nocross` rule says, or what a rule for another number of cells says, or that digit (in upper case if it
is also capitalised).  (Missing: "always that digit", `C40_contraction_in_number_wrong`.) -/
theorem C62_digits_backward_partial (h : MainStage sys ctx .backward rules p) (ht : p.Traces cs text spans ts) (done : List Resolved)
    (tr : Resolved) (rest : List Resolved) (e : ts = done ++ tr :: rest)
    (hdig : DigitCell (backNumbers sys ctx rules) text (coveredBy done))
    (hout : ¬ InComputerBraille ctx rules spans text (coveredBy done)) (c : Char) (hc : text[coveredBy done]? = some c)
    (digit : Char) (line : Origin) (hover : digitReading rules c = some (digit, line)) :
    (∃ r ∈ rules, ∃ dots, r.rule.sign? = some dots ∧ tr = indication dots.toText r.origin) ∨
    (∃ r ∈ rules, r.rule.isNocross = true ∧ tr.origin = some r.origin) ∨ tr.input.length ≠ 1 ∨
    (tr.input = [c] ∧ tr.origin = some line ∧
      (tr.output = [digit] ∨ InCapitalWord (backCaps sys ctx rules) text (coveredBy done) ∧ tr.output = cs.upperStr [digit] ∨
        AfterCapitalSign (backCaps sys ctx rules) text (coveredBy done) ∧ tr.output = cs.upperChar digit)) := by
  obtain ⟨en, cons, ind, h1, h2, h3, h4⟩ := ht
  obtain ⟨f1, f2, f3⟩ := flags_backward h h2 (coveredBy done)
  have h6 : cons.useComp6 (coveredBy done) = false := by
    cases h6 : cons.useComp6 (coveredBy done) with
    | false => rfl
    | true => exact absurd ((covers_enriched h h1 _).mp ((precompute_flags h2 _).1.mp h6)) hout
  have hpos : coveredBy done = (done.map (·.input.length)).sum := by
    unfold coveredBy
    rw [List.length_flatMap]
  rcases C40_digit_preferred_partial _ _ _ h.built cs cons _ (h.ind_empty h3) text ts h4 done tr rest e _ hpos (f3.mpr hdig) h6 c hc
    _ ((C62_digit_readings h c).trans (by rw [hover]; rfl)) with ⟨q, hq⟩ | ⟨r, hr, ho⟩ | hl | hrec
  · exact .inl (h.signs tr (precompute_signs _ _ _ _ _ h3 q tr hq))
  · obtain ⟨r', hr', g1, g2, -⟩ := tableOps_of (cl := ctx.neighbours .backward) _ hr
    refine .inr (.inl ⟨r', hr', ?_, by rw [ho, g1]⟩)
    have g3 := g2.symm
    rw [Bool.and_eq_true] at g3
    exact g3.1
  · exact .inr (.inr (.inl hl))
  · refine .inr (.inr (.inr ?_))
    have ho := hrec.others
    refine ⟨by rw [ho]; rfl, by rw [ho]; rfl, ?_⟩
    cases hu : cons.uppercase (coveredBy done) with
    | true => exact .inr (.inl ⟨f1.mp hu, hrec.upper hu⟩)
    | false =>
      cases htt : cons.titlecase (coveredBy done) with
      | true =>
        refine .inr (.inr ⟨f2.mp htt, ?_⟩)
        have := hrec.title hu htt digit [] rfl
        simpa using this
      | false => exact .inl (hrec.same hu htt)

end

/-! ## Concrete cases -/

/-- A table with computer braille, numbers and punctuation. -/
def gatesTable : String :=
  "space \\s 0\npunctuation ( 236\npunctuation . 256\nletter a 1\nletter b 12\nletter w 2456\nlitdigit 1 16\nlitdigit 2 126\n" ++
  "numsign 3456\nalways ab 3\nalways 12 4\ncompbrl www\ncomp6 ab 1-12\nbegcomp 456-346\nendcomp 456-156\nprepunc ( 5-126\n" ++
  "postpunc . 46-3\n"

/-- `ab` is contracted, except in computer braille, where the `comp6` line is used; `12` is never contracted; the parenthesis before a
word and the full stop after a word are those of the `prepunc` and `postpunc` lines. -/
example : SourceTranslates demoSys ascii gatesTable.toList .forward [] "(ab 12 www.ab. ab.".toList
    "⠐⠣⠄⠀⠼⠡⠣⠀⠸⠬⠺⠺⠺⠲⠁⠃⠲⠸⠱⠀⠄⠨⠄".toList := runSource_sound (fuel := 40) (by decide +kernel)

/-- Inside a word the parenthesis is the ordinary one. -/
example : SourceTranslates demoSys ascii gatesTable.toList .forward [] "a(a".toList "⠁⠦⠁".toList :=
  runSource_sound (fuel := 40) (by decide +kernel)

def gatesRules : List Anchored := ((parseTable gatesTable.toList none).toOption.getD []) |> anchor

/-- The table of the example has computer braille, outside and inside of the word with the trigger. -/
example : InComputerBraille (TableCtx.compile demoSys.alpha gatesRules) gatesRules [] "a www.ab".toList 6 ∧
    NoNocross gatesRules := by
  have h1 : (gatesRules.any fun r => match r.rule with | .compbrl t _ => t == "www".toList | _ => false) = true := by decide +kernel
  have h2 : (gatesRules.all fun r => !r.rule.isNocross) = true := by decide +kernel
  have h3 : (TableCtx.compile demoSys.alpha gatesRules).classes.isWhitespace ' ' = true := by decide +kernel
  have h4 : "www.ab".toList.all (fun c => !(TableCtx.compile demoSys.alpha gatesRules).classes.isWhitespace c) = true := by
    decide +kernel
  generalize TableCtx.compile demoSys.alpha gatesRules = ctx at *
  generalize gatesRules = rules at *
  refine ⟨⟨by decide, .inr ?_⟩, fun r hr => by simpa using List.all_eq_true.mp h2 r hr⟩
  obtain ⟨r, hr, h⟩ := List.any_eq_true.mp h1
  split at h
  · rename_i t cons hrule
    refine ⟨r, hr, t, cons, hrule, 2, 2, 8, ⟨by decide, ".ab".toList, by rw [eq_of_beq h]; rfl⟩, ?_, by decide, by decide⟩
    refine ⟨by decide, ?_, .inr ⟨' ', rfl, h3⟩, .inl rfl⟩
    intro i hi1 hi2 c hc
    have hm : c ∈ "www.ab".toList := by
      have e : "a www.ab".toList = "a ".toList ++ "www.ab".toList := rfl
      rw [e, List.getElem?_append_right hi1] at hc
      exact List.mem_of_getElem? hc
    simpa using List.all_eq_true.mp h4 c hm
  · cases h

/-- Reading capitals and digits. -/
def backTable : String :=
  "space \\s 0\nletter a 1\nletter b 12\nlitdigit 1 1\nlitdigit 2 12\nnumsign 3456\ncapsletter 6\nbegcapsword 6-6\nendcapsword 6-3\n"

example : SourceTranslates demoSys asciiCase backTable.toList .backward [] "⠠⠁⠃⠀⠠⠠⠁⠃⠠⠄⠁⠀⠼⠁⠃⠀⠁".toList "Ab ABa 12 a".toList :=
  runSource_sound (fuel := 40) (by decide +kernel)

example : digitReading (anchor ((parseTable backTable.toList none).toOption.getD [])) '⠃' = some ('2', ⟨.other, 4⟩) := by
  decide +kernel

/-- A backward translation asked for with an emphasis span writes the braille sign of the emphasis into the print: signs are
written in both directions. -/
theorem C62_sign_in_print_wrong : SourceTranslates demoSys asciiCase (backTable ++ "begemph italic 46\n").toList .backward
    [⟨"italic".toList, 0, 2⟩] "⠁⠃".toList "⠨ab".toList := runSource_sound (fuel := 40) (by decide +kernel)

end Louis
