import Verif.Props.Output
import Verif.Spec.OutputBack

/-!
# C84: backward translation writes what the lines give
-/

namespace Louis

theorem says_letters {r : Rule} {cl : CharClasses} {defs : CharDefs} {before after : Option Char} {chars dots : Text}
    (hs : r.Says cl defs before after chars dots) : ∀ x ∈ chars, x ∈ r.readBack := by
  intro x hx
  cases r <;> cases hs <;> exact hx

theorem cellsBack_of_sign {r : Rule} {dots : Cells} (h : r.sign? = some dots) : r.cellsBack = dots.toText := by
  unfold Rule.sign? at h
  split at h <;> first | (injection h with h; subst h; rfl) | cases h

theorem capital_given {cs : Case} {used : List Anchored} {d : Direction} {written out : Text}
    (h : MaybeCapital cs d written out) (hw : ∀ x ∈ written, ReadGiven used x) : ∀ x ∈ out, GivenBack cs used x := by
  intro x hx
  rcases h with rfl | ⟨-, rfl | rfl⟩
  · exact .inl (hw x hx)
  · exact .inr ⟨written, hw, .inl hx⟩
  · cases written with
    | nil => cases hx
    | cons c rest =>
      rcases List.mem_append.1 hx with hx | hx
      · exact .inr ⟨c :: rest, hw, .inr ⟨c, List.mem_cons_self, hx⟩⟩
      · exact .inl (hw x (List.mem_cons_of_mem _ hx))

theorem explained_givenBack {alpha : Char → Bool} {used : List Anchored} (hw : ∀ r ∈ used, r.rule.PassWritten)
    (hn : ∀ r ∈ used, ∀ test action cons, r.rule = .pass .context test action cons →
      ∀ a ∈ action, a ≠ .replace ∧ ∀ name, a ≠ .swapClass name) {cs : Case} {input : Text}
    {done : List Resolved} {tr : Resolved} (h : Explained (TableCtx.compile alpha used) .backward cs used input done tr) :
    ∀ x ∈ tr.output, GivenBack cs used x := by
  have hd : ∀ c dots, (TableCtx.compile alpha used).defs.get c = some dots → ∀ x ∈ dots, Given used x :=
    fun c dots h => defs_given alpha used h
  cases h with
  | sign r dots hr hs e =>
    intro x hx
    rw [e] at hx
    exact .inl (.inl ⟨r, hr, .inr (by rw [cellsBack_of_sign hs]; exact hx)⟩)
  | rule r chars dots written consumed tail hr _ _ _ hs _ hdir hc =>
    refine capital_given hc fun x hx => .inl ⟨r, hr, .inl (says_letters hs x ?_)⟩
    rw [← hdir.2]; exact hx
  | backSign r dots consumed tail _ _ _ _ _ _ _ hc => exact capital_given hc fun x hx => by cases hx
  | matched r pre chars post b cons dots hr _ e hb _ hc _ =>
    refine capital_given hc fun x hx => ?_
    cases hb with
    | explicit cells => exact .inl ⟨r, hr, .inr (by rw [e]; exact hx)⟩
    | implicit hs => exact .inr ⟨.inl ⟨r, hr, pre, chars, post, cons, e⟩, spelled_given hd hs x hx⟩
  | context r test action cons hr _ e hwr _ =>
    have hp := hw r hr
    rw [e] at hp
    obtain ⟨⟨written, h1, h2⟩, -⟩ := hwr hp.1 hp.2
    refine capital_given h2 fun x hx => .inl ⟨r, hr, .inl ?_⟩
    rw [e]
    exact writes_given h1 (hn r hr test action cons e) (fun a ha x hx => List.mem_flatMap.2 ⟨a, ha, hx⟩) x hx
  | undefined c tail _ _ _ _ h =>
    intro x hx
    rcases h with ⟨a, r, b, dots, e, hr, ho, -⟩ | ⟨hno, h⟩
    · rw [ho] at hx
      exact .inl (.inl ⟨r, by rw [e]; simp, .inr (by rw [hr]; exact hx)⟩)
    · exact .inl (.inr ⟨.inr hno, escape_given hd h x hx⟩)

theorem mem_usedIn {rules : List Anchored} {d : Direction} {r : Anchored} :
    r ∈ allowedRules rules d ↔ r ∈ rules ∧ r.rule.AllowedIn d := by
  unfold allowedRules
  rw [List.mem_filter, ← isDirection_iff]

/-- **C84.** Everything that a backward translation writes is given by the lines of the table that are used in this direction: each
character of the translation is a character of a line, one that the action of a `context` or `correct` line writes, a cell of a
sign, an `undefined` or a `match` line, or a replacement of a class, possibly in capitals; and a cell of a character definition, or
built in, only where a `match` line asks for it with `=`, or where no line says what to write for unknown cells.  This is provided
that no `context` line copies the cells it reads. -/
theorem C84_read_from_lines {sys : Sys} {rules : List Anchored} {steps : List Transform} (ht : TableRules rules)
    (h : Pipeline.Compiles sys rules .backward steps) (hn : NoCopyingBack rules) {cs : Case} {spans : List Span}
    {input output : Text} (hr : Pipeline.Translates cs spans input steps output) {used : List Anchored}
    (hu : ∀ r, r ∈ used ↔ r ∈ rules ∧ r.rule.AllowedIn .backward) : ∀ c ∈ output, GivenBack cs used c := by
  obtain ⟨correct, p, pass2, pass3, pass4, e, hp, g1, -⟩ := C11_stages sys rules .backward steps h
  have hw := ht.passWritten
  have e' : steps = (pass4.reverse ++ pass3.reverse ++ pass2.reverse) ++ ([.primary p] ++ correct.reverse) := by
    rw [e]; simp [inOrder]
  rw [e'] at hr
  obtain ⟨m1, -, hr⟩ := (C11_composition cs spans _ _ input output).1 hr
  obtain ⟨m2, t1, t2⟩ := (C11_composition cs spans [.primary p] _ m1 output).1 hr
  obtain ⟨mid, ⟨ts, t1, rfl⟩, rfl⟩ := t1
  have hsame : ∀ r, r ∈ allowedRules rules .backward ↔ r ∈ used := fun r => by rw [mem_usedIn, hu]
  have hto : ∀ c, GivenBack cs (allowedRules rules .backward) c → GivenBack cs used c := by
    have key : ∀ c, ReadGiven (allowedRules rules .backward) c → ReadGiven used c := by
      rintro c (⟨r, hr, h⟩ | ⟨h1, h2⟩)
      · exact .inl ⟨r, (hsame r).1 hr, h⟩
      · refine .inr ⟨?_, h2.more fun r hr => (hsame r).1 hr⟩
        rcases h1 with ⟨r, hr, h⟩ | h1
        · exact .inl ⟨r, (hsame r).1 hr, h⟩
        · exact .inr fun r hr => h1 r ((hsame r).2 hr)
    rintro c (h | ⟨w, hw, h⟩)
    · exact .inl (key c h)
    · exact .inr ⟨w, fun x hx => key x (hw x hx), h⟩
  have hmain : ∀ x ∈ outputOf ts, GivenBack cs used x := by
    intro x hx
    obtain ⟨o, ho, hx⟩ := List.mem_flatMap.1 hx
    obtain ⟨done, rest, e⟩ := List.append_of_mem ho
    refine hto x (explained_givenBack (fun r hr => hw r (mem_usedIn.1 hr).1) ?_
      (C56_main_stage_explained sys _ .backward _ p hp cs m1 spans ts t1 done o rest e) x hx)
    intro r hr test action cons er
    obtain ⟨h1, h2⟩ := mem_usedIn.1 hr
    exact hn r h1 h2 test action cons er
  have hcorrect : correct.reverse = correct := by
    have := g1.passSteps (.inl rfl) hw
    cases this <;> rfl
  rw [hcorrect] at t2
  refine pass_given ?_ ?_ (g1.passSteps (.inl rfl) hw) hmain t2
  · intro r hr x hx
    have ha : r.rule.AllowedIn .backward := by
      cases er : r.rule <;> rw [er] at hx <;> first | exact .inr rfl | cases hx
    refine .inl (.inl ⟨r, (hu r).2 ⟨hr, ha⟩, .inr ?_⟩)
    cases er : r.rule <;> rw [er] at hx <;> first | exact hx | cases hx
  · intro r hr hal test action cons er a ha x hx
    exact .inl (.inl ⟨r, (hu r).2 ⟨hr, hal⟩, .inl (by rw [er]; exact List.mem_flatMap.2 ⟨a, ha, hx⟩)⟩)

/-- **C84.** In a table with an `undefined` line and without `context`, `correct`, `match` and `swap` lines, a backward translation
consists of characters of the lines, possibly in capitals, and of cells of signs and `undefined` lines. -/
theorem C84_letters_and_signs {sys : Sys} {rules : List Anchored} {steps : List Transform} (ht : TableRules rules)
    (h : Pipeline.Compiles sys rules .backward steps) (hu : ∃ r ∈ rules, ∃ dots, r.rule = .undefined dots)
    (hplain : ∀ r ∈ rules, match r.rule with
      | .pass .context _ _ _ | .pass .correct _ _ _ | .matchRule _ _ _ _ _ | .swapcd _ _ _ | .swapdd _ _ _ | .swapcc _ _ _ => False
      | _ => True) {cs : Case} {spans : List Span} {input output : Text} (hr : Pipeline.Translates cs spans input steps output) :
    let plain := fun c => ∃ r ∈ rules, r.rule.AllowedIn .backward ∧
      (c ∈ r.rule.readBack ∨
        ∃ dots : Cells, (r.rule = .undefined dots ∨ r.rule.sign? = some dots) ∧ c ∈ dots.toText)
    ∀ c ∈ output, plain c ∨ Capital cs plain c := by
  intro plain
  have hn : NoCopyingBack rules := by
    intro r hr _ test action cons er
    have := hplain r hr
    rw [er] at this
    exact this.elim
  have key : ∀ c, ReadGiven (allowedRules rules .backward) c → plain c := by
    rintro c (⟨r, hr, hc⟩ | ⟨h1, -⟩)
    · obtain ⟨hr, ha⟩ := mem_usedIn.1 hr
      refine ⟨r, hr, ha, ?_⟩
      have hp := hplain r hr
      rcases hc with hc | hc
      · exact .inl hc
      · right
        cases er : r.rule <;> rw [er] at hc hp <;> first
          | exact ⟨_, .inl rfl, hc⟩
          | exact ⟨_, .inr rfl, hc⟩
          | exact hp.elim
          | cases hc
    · rcases h1 with ⟨r, hr, pre, chars, post, cons, er⟩ | h1
      · have := hplain r (mem_usedIn.1 hr).1
        rw [er] at this
        exact this.elim
      · obtain ⟨r, hr, dots, er⟩ := hu
        exact absurd er (h1 r (mem_usedIn.2 ⟨hr, by rw [er]; exact .inr rfl⟩) dots)
  intro c hc
  rcases C84_read_from_lines ht h hn hr (fun r => mem_usedIn) c hc with h | ⟨w, hw, h⟩
  · exact .inl (key c h)
  · exact .inr ⟨w, fun x hx => key x (hw x hx), h⟩

/-! ## Concrete cases -/

def lettersTable : Text := "space \\s 0\nlowercase a 1\nlowercase b 12\nlowercase c 14\nuppercase A 17\nalways ab 3\nundefined 26\n\
capsletter 6\nnumsign 3456\ndigit 1 1\n".toList

def lettersRules : List Anchored := match parseTable lettersTable none with
  | .ok rules => anchor rules
  | .error _ => []

theorem lettersRules_table : TableRules lettersRules := by
  have h : ∃ rules, parseTable lettersTable none = .ok rules := by
    have : (match parseTable lettersTable none with | .ok _ => true | .error _ => false) = true := by decide +kernel
    split at this
    · next rules h => exact ⟨rules, h⟩
    · cases this
  obtain ⟨rules, h⟩ := h
  have : lettersRules = anchor rules := by unfold lettersRules; rw [h]
  rw [this]
  exact .source _ _ _ h

/-- The hypotheses of C84 are met by a table with an `undefined` line and signs; the text has signs and a cell that the table does not
know. -/
example : TableRules lettersRules ∧ (∃ r ∈ lettersRules, ∃ dots, r.rule = .undefined dots) ∧
    (∀ r ∈ lettersRules, match r.rule with
      | .pass .context _ _ _ | .pass .correct _ _ _ | .matchRule _ _ _ _ _ | .swapcd _ _ _ | .swapdd _ _ _ | .swapcc _ _ _ => False
      | _ => True) ∧ NoCopyingBack lettersRules ∧
    SourceTranslates demoSys asciiCase lettersTable .backward [] "⠄⠉⠠⠁⠁⠿⠀⠼⠁".toList "abcAa⠢ 1".toList := by
  have hplain : ∀ r ∈ lettersRules, match r.rule with
      | .pass .context _ _ _ | .pass .correct _ _ _ | .matchRule _ _ _ _ _ | .swapcd _ _ _ | .swapdd _ _ _ | .swapcc _ _ _ => False
      | _ => True := by
    have : (lettersRules.all fun r => match r.rule with
      | .pass .context _ _ _ | .pass .correct _ _ _ | .matchRule _ _ _ _ _ | .swapcd _ _ _ | .swapdd _ _ _ | .swapcc _ _ _ => false
      | _ => true) = true := by decide +kernel
    intro r hr
    have := List.all_eq_true.1 this r hr
    split at this <;> simp_all
  refine ⟨lettersRules_table, ?_, hplain, ?_, runSource_sound (fuel := 60) (by decide +kernel)⟩
  · have : (lettersRules.any fun r => match r.rule with | .undefined _ => true | _ => false) = true := by decide +kernel
    obtain ⟨r, hr, h⟩ := List.any_eq_true.1 this
    refine ⟨r, hr, ?_⟩
    cases er : r.rule <;> rw [er] at h <;> first | exact ⟨_, rfl⟩ | cases h
  · intro r hr _ test action cons er
    have := hplain r hr
    rw [er] at this
    exact this.elim

def copyingTable : Text := "lowercase a 1\nundefined 26\ncontext @12 *\n".toList

def copyingRules : List Anchored := match parseTable copyingTable none with
  | .ok rules => anchor rules
  | .error _ => []

/-- Without its hypothesis C84 is false: a `context` line that copies what it reads puts a cell into the text that no line gives. -/
theorem C84_copying_wrong : SourceTranslates demoSys asciiCase copyingTable .backward [] "⠁⠃".toList "a⠃".toList ∧
    ¬ GivenBack asciiCase copyingRules '⠃' := by
  refine ⟨runSource_sound (fuel := 40) (by decide +kernel), ?_⟩
  have key : ∀ x, ReadGiven copyingRules x → x = 'a' ∨ x = '⠢' := by
    rintro x (⟨r, hr, h⟩ | ⟨h, -⟩)
    · have : ∀ r ∈ copyingRules, ∀ x ∈ r.rule.readBack ++ r.rule.cellsBack, x = 'a' ∨ x = '⠢' := by decide +kernel
      exact this r hr x (by simpa using h)
    · rcases h with ⟨r, hr, pre, chars, post, cons, er⟩ | h
      · have : (copyingRules.all fun r => match r.rule with | .matchRule .. => false | _ => true) = true := by decide +kernel
        have := List.all_eq_true.1 this r hr
        rw [er] at this
        cases this
      · have : (copyingRules.any fun r => match r.rule with | .undefined _ => true | _ => false) = true := by decide +kernel
        obtain ⟨r, hr, hu⟩ := List.any_eq_true.1 this
        cases er : r.rule <;> rw [er] at hu <;> first | exact absurd er (h r hr _) | cases hu
  have hup : ∀ x, ReadGiven copyingRules x → '⠃' ≠ asciiUpper x := by
    intro x hx
    rcases key x hx with rfl | rfl <;> decide +kernel
  rintro (h | ⟨w, hw, h | ⟨x, hx, h⟩⟩)
  · rcases key _ h with h | h <;> exact absurd h (by decide +kernel)
  · obtain ⟨x, hx, e⟩ := List.mem_map.1 h
    exact hup x (hw x hx) e.symm
  · exact hup x (hw x hx) (List.mem_singleton.1 h)

end Louis
