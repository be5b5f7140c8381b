import Verif.Spec.Output
import Verif.Props.Whole
import Verif.Props.MainFacts
import Verif.Props.ExplainedMain
import Verif.Props.PassTables
import Verif.Props.PassClasses

/-!
# C83: forward translation writes braille

Every character of a forward translation is a cell that some line of the table gives, or one of the cells built into the program.
-/

namespace Louis

theorem Given.line {rules : List Anchored} {r : Anchored} (hr : r ∈ rules) {c : Char} (h : c ∈ r.rule.written) : Given rules c :=
  .inl ⟨r, hr, h⟩

theorem Given.more {rules rules' : List Anchored} (hs : ∀ r ∈ rules, r ∈ rules') {c : Char} (h : Given rules c) : Given rules' c := by
  rcases h with ⟨r, hr, h⟩ | h
  · exact .inl ⟨r, hs r hr, h⟩
  · exact .inr h

/-! ## Definitions and swaps -/

theorem defs_given (alpha : Char → Bool) (rules : List Anchored) {c : Char} {dots : Text}
    (h : (TableCtx.compile alpha rules).defs.get c = some dots) : ∀ x ∈ dots, Given rules x := by
  have key : ∀ (rs : List Anchored) (defs : CharDefs), (∀ p ∈ defs, ∀ x ∈ p.2, Given rules x) →
      ∀ p ∈ rs.foldl (fun defs r => deriveDefs defs r.rule) defs, ∀ x ∈ p.2, Given rules x := by
    intro rs
    induction rs with
    | nil => intro defs h; exact h
    | cons r rs ih =>
      intro defs h
      rw [List.foldl_cons]
      refine ih _ ?_
      cases er : r.rule with
      | base name derived b =>
        simp only [deriveDefs]
        split
        · exact h
        · next dots' hg =>
          intro p hp
          simp only [CharDefs.insert, List.mem_append, List.mem_singleton] at hp
          rcases hp with hp | rfl
          · exact h p hp
          · simp only [CharDefs.get, Option.map_eq_some_iff] at hg
            obtain ⟨q, hq, rfl⟩ := hg
            exact h q (List.mem_of_find?_eq_some hq)
      | _ => exact h
  rw [compile_defs] at h
  simp only [CharDefs.get, Option.map_eq_some_iff] at h
  obtain ⟨q, hq, rfl⟩ := h
  refine key rules _ ?_ q (List.mem_of_find?_eq_some hq)
  rintro ⟨c', ds⟩ hp x hx
  obtain ⟨r, hr, hm⟩ := List.mem_flatMap.1 hp
  refine .line hr ?_
  rcases (directOf_iff _ _ _).1 hm with ⟨k, cells, cons, e, rfl⟩ | ⟨cells, e, rfl⟩ <;> rw [e] <;> exact hx

theorem spelled_given {rules : List Anchored} {defs : CharDefs}
    (h : ∀ c dots, defs.get c = some dots → ∀ x ∈ dots, Given rules x) {chars dots : Text} (hs : SpelledOut defs chars dots) :
    ∀ x ∈ dots, Given rules x := by
  induction hs with
  | nil => intro x hx; cases hx
  | cons hc _ ih =>
    intro x hx
    rcases List.mem_append.1 hx with hx | hx
    · exact h _ _ hc x hx
    · exact ih x hx

theorem braille_given {rules : List Anchored} {defs : CharDefs}
    (h : ∀ c dots, defs.get c = some dots → ∀ x ∈ dots, Given rules x) {chars dots : Text} {b : Braille}
    (hb : BrailleOf defs chars b dots) (hw : ∀ x ∈ b.written, Given rules x) : ∀ x ∈ dots, Given rules x := by
  cases hb with
  | explicit cells => exact hw
  | implicit hs => exact spelled_given h hs

theorem mem_zip_snd {α β : Type} {p : α × β} : ∀ {a : List α} {b : List β}, p ∈ a.zip b → p.2 ∈ b
  | _, _, h => (List.of_mem_zip h).2

/-- The replacements that a line defining a class gives. -/
def Rule.swapText : Rule → Text
  | .swapcd _ _ dots => dots.flatMap Cells.toText
  | .swapdd _ _ replacement => replacement.flatMap Cells.toText
  | .swapcc _ _ replacement => replacement
  | _ => []

theorem swapText_written {r : Rule} : ∀ x ∈ r.swapText, x ∈ r.written := by
  intro x hx
  cases r <;> first | exact hx | cases hx

theorem swaps_text (alpha : Char → Bool) (rules : List Anchored) {name : Text} {s : Swapper}
    (h : (TableCtx.compile alpha rules).swaps.get name = some s) : ∀ m ∈ s.mappings, ∀ x ∈ m.2, ∃ r ∈ rules, x ∈ r.rule.swapText := by
  have key : ∀ (rs : List Anchored) (ctx : TableCtx), (∀ r ∈ rs, r ∈ rules) →
      (∀ p ∈ ctx.swaps, ∀ m ∈ p.2.mappings, ∀ x ∈ m.2, ∃ r ∈ rules, x ∈ r.rule.swapText) →
      ∀ p ∈ (rs.foldl (fun ctx r => ctx.derive r.rule) ctx).swaps, ∀ m ∈ p.2.mappings, ∀ x ∈ m.2, ∃ r ∈ rules, x ∈ r.rule.swapText := by
    intro rs
    induction rs with
    | nil => intro ctx _ h; exact h
    | cons r rs ih =>
      intro ctx hr h
      rw [List.foldl_cons]
      refine ih _ (fun q hq => hr q (List.mem_cons_of_mem _ hq)) ?_
      have hin := hr r List.mem_cons_self
      cases er : r.rule
      case base n dd b => simp only [TableCtx.derive]; split <;> exact h
      case swapcc n cs rp =>
        intro p hp m hm x hx
        simp only [TableCtx.derive, SwapClasses.insert, List.mem_cons] at hp
        rcases hp with rfl | hp
        · obtain ⟨y, hy, e⟩ := List.mem_map.1 (mem_zip_snd hm)
          rw [← e, List.mem_singleton] at hx
          exact ⟨_, hin, by rw [er, hx]; exact hy⟩
        · exact h p hp m hm x hx
      case swapcd n cs ds =>
        intro p hp m hm x hx
        simp only [TableCtx.derive, SwapClasses.insert, List.mem_cons] at hp
        rcases hp with rfl | hp
        · obtain ⟨y, hy, e⟩ := List.mem_map.1 (mem_zip_snd hm)
          rw [← e] at hx
          exact ⟨_, hin, by rw [er]; exact List.mem_flatMap.2 ⟨y, hy, hx⟩⟩
        · exact h p hp m hm x hx
      case swapdd n cs ds =>
        intro p hp m hm x hx
        simp only [TableCtx.derive, SwapClasses.insert, List.mem_cons] at hp
        rcases hp with rfl | hp
        · obtain ⟨y, hy, e⟩ := List.mem_map.1 (mem_zip_snd hm)
          rw [← e] at hx
          exact ⟨_, hin, by rw [er]; exact List.mem_flatMap.2 ⟨y, hy, hx⟩⟩
        · exact h p hp m hm x hx
      all_goals exact h
  simp only [SwapClasses.get, Option.map_eq_some_iff] at h
  obtain ⟨q, hq, rfl⟩ := h
  refine key rules _ (fun r hr => hr) ?_ q (List.mem_of_find?_eq_some hq)
  rw [defineAll_swaps]
  intro p hp
  cases hp

theorem swaps_given (alpha : Char → Bool) (rules : List Anchored) {name : Text} {s : Swapper}
    (h : (TableCtx.compile alpha rules).swaps.get name = some s) : ∀ m ∈ s.mappings, ∀ x ∈ m.2, Given rules x := by
  intro m hm x hx
  obtain ⟨r, hr, h⟩ := swaps_text alpha rules h m hm x hx
  exact .line hr (swapText_written x h)

theorem swap_given {P : Char → Prop} {s : Swapper} (h : ∀ m ∈ s.mappings, ∀ x ∈ m.2, P x) {y : Text}
    (hy : ∀ x ∈ y, P x) : ∀ x ∈ s.swap y, P x := by
  intro x hx
  obtain ⟨c, hc, hx⟩ := List.mem_flatMap.1 hx
  cases hg : s.get c with
  | none => rw [hg] at hx; rw [List.mem_singleton.1 hx]; exact hy c hc
  | some t =>
    rw [hg] at hx
    simp only [Swapper.get, Option.map_eq_some_iff] at hg
    obtain ⟨q, hq, rfl⟩ := hg
    exact h q (List.mem_reverse.1 (List.mem_of_find?_eq_some hq)) x hx

/-! ## The main stage -/

theorem written_of_sign {r : Rule} {dots : Cells} (h : r.sign? = some dots) : r.written = dots.toText := by
  unfold Rule.sign? at h
  split at h <;> first | (injection h with h; subst h; rfl) | cases h

theorem says_given {rules : List Anchored} {r : Anchored} (hr : r ∈ rules) {cl : CharClasses} {defs : CharDefs}
    (h : ∀ c dots, defs.get c = some dots → ∀ x ∈ dots, Given rules x) {before after : Option Char} {chars dots : Text}
    (hs : r.rule.Says cl defs before after chars dots) : ∀ x ∈ dots, Given rules x := by
  have hw : ∀ x ∈ r.rule.written, Given rules x := fun x hx => .line hr hx
  cases e : r.rule <;> rw [e] at hs hw <;> cases hs
  case text _ hb => exact braille_given h hb hw
  case contraction _ _ hs => exact spelled_given h hs
  case syllable hb => exact braille_given h hb hw
  case endnum _ hb => exact braille_given h hb hw
  case comp6 hb => exact braille_given h hb hw
  case base hd => exact h _ _ hd
  all_goals exact hw

theorem escape_given {rules : List Anchored} {defs : CharDefs}
    (h : ∀ c dots, defs.get c = some dots → ∀ x ∈ dots, Given rules x) : ∀ {w out : Text}, escapeCells defs w = .ok out →
    ∀ x ∈ out, Given rules x
  | [], _, e, x, hx => by cases e; cases hx
  | c :: w, out, e, x, hx => by
    unfold escapeCells at e
    split at e
    · cases e
    · next rest hrest =>
      have ih := escape_given h hrest
      split at e
      · next t ht =>
        cases e
        rcases List.mem_append.1 hx with hx | hx
        · exact h c t ht x hx
        · exact ih x hx
      · split at e
        · next cell hc =>
          cases e
          rcases List.mem_cons.1 hx with rfl | hx
          · obtain ⟨k, hk, rfl⟩ := fallbackCell_spec hc
            exact .inr ⟨c, k, hk, rfl⟩
          · exact ih x hx
        · cases e

theorem writes_given {P : Char → Prop} {swaps : SwapClasses} {y : Text} {action : List ActionInstr} {out : Text}
    (h : Writes swaps y action out) (hn : ∀ a ∈ action, a ≠ .replace ∧ ∀ name, a ≠ .swapClass name)
    (hw : ∀ a ∈ action, ∀ x ∈ a.written, P x) : ∀ x ∈ out, P x := by
  induction h with
  | nil => intro x hx; cases hx
  | string s as out _ ih | dots s as out _ ih =>
    intro x hx
    rcases List.mem_append.1 hx with hx | hx
    · exact hw _ List.mem_cons_self x hx
    · exact ih (fun a ha => hn a (List.mem_cons_of_mem _ ha)) (fun a ha => hw a (List.mem_cons_of_mem _ ha)) x hx
  | replace as out _ _ => exact absurd rfl (hn _ List.mem_cons_self).1
  | swap n s as out _ _ _ => exact absurd rfl ((hn _ List.mem_cons_self).2 n)
  | ignore as out _ ih | assignment v x as out _ ih | increment v as out _ ih | decrement v as out _ ih =>
    exact ih (fun a ha => hn a (List.mem_cons_of_mem _ ha)) (fun a ha => hw a (List.mem_cons_of_mem _ ha))

theorem forward_written {cs : Case} {written out : Text} (h : MaybeCapital cs .forward written out) : out = written := by
  rcases h with h | ⟨h, -⟩
  · exact h
  · cases h

theorem explained_given {alpha : Char → Bool} {rules : List Anchored} (hw : ∀ r ∈ rules, r.rule.PassWritten)
    (hn : ∀ r ∈ rules, ∀ test action cons, r.rule = .pass .context test action cons →
      ∀ a ∈ action, a ≠ .replace ∧ ∀ name, a ≠ .swapClass name) {cs : Case} {input : Text}
    {done : List Resolved} {tr : Resolved} (h : Explained (TableCtx.compile alpha rules) .forward cs rules input done tr) :
    ∀ x ∈ tr.output, Given rules x := by
  have hd : ∀ c dots, (TableCtx.compile alpha rules).defs.get c = some dots → ∀ x ∈ dots, Given rules x :=
    fun c dots h => defs_given alpha rules h
  cases h with
  | sign r dots hr hs e =>
    intro x hx
    rw [e] at hx
    exact .line hr (by rw [written_of_sign hs]; exact hx)
  | rule r chars dots written consumed tail hr _ _ _ hs _ hdir hc =>
    rw [forward_written hc, hdir.2]
    exact says_given hr hd hs
  | backSign r dots consumed tail e => cases e
  | matched r pre chars post b cons dots hr _ e hb _ hc _ =>
    rw [forward_written hc]
    exact braille_given hd hb fun x hx => .line hr (by rw [e]; exact hx)
  | context r test action cons hr _ e hwr _ =>
    have hp := hw r hr
    rw [e] at hp
    obtain ⟨⟨written, h1, h2⟩, -⟩ := hwr hp.1 hp.2
    rw [forward_written h2]
    exact writes_given h1 (hn r hr test action cons e) fun a ha x hx =>
      .line hr (by rw [e]; exact List.mem_flatMap.2 ⟨a, ha, hx⟩)
  | undefined c tail _ _ _ _ h =>
    rcases h with ⟨a, r, b, dots, e, hr, ho, -⟩ | ⟨-, h⟩
    · intro x hx
      rw [ho] at hx
      exact .line (r := r) (by rw [e]; simp) (by rw [hr]; exact hx)
    · exact escape_given hd h

/-! ## The passes over cells -/

theorem choices_offer {T : PassTable} {input : Text} {items : List Resolved} {o : Resolved} (h : o ∈ T.choices input items) :
    ∃ line ∈ T.lines, ∃ y, (∀ x ∈ y, x ∈ input) ∧ o.output = line.action.flatMap (actionText T.swaps y) := by
  have key : ∀ items', ∀ o' ∈ T.offers input items',
      ∃ line ∈ T.lines, ∃ y, (∀ x ∈ y, x ∈ input) ∧ o'.output = line.action.flatMap (actionText T.swaps y) := by
    intro items' o' ho
    obtain ⟨line, hl, ho⟩ := List.mem_filterMap.1 ho
    simp only [PassTable.offer, Option.map_eq_some_iff] at ho
    obtain ⟨⟨a, b, c⟩, hs, rfl⟩ := ho
    refine ⟨line, hl, b, fun x hx => ?_, rfl⟩
    obtain ⟨rest, e⟩ := stretchOf_split hs
    have : x ∈ input.drop (dealtWith items').length := by rw [e]; simp [hx]
    exact List.mem_of_mem_drop this
  simp only [PassTable.choices, List.mem_append, List.mem_filter] at h
  rcases h with ⟨h, -⟩ | h
  · exact key _ _ h
  · unfold fromEarlier at h
    split at h
    · obtain ⟨o', ho', rfl⟩ := List.mem_map.1 h
      obtain ⟨i, -, ho'⟩ := List.mem_flatMap.1 ho'
      exact key _ o' (List.mem_filter.1 ho').1
    · cases h

theorem run_given {P : Char → Prop} {T : PassTable} (hs : ∀ name s, T.swaps.get name = some s →
      ∀ m ∈ s.mappings, ∀ x ∈ m.2, P x)
    (hl : ∀ line ∈ T.lines, ∀ a ∈ line.action, ∀ x ∈ a.written, P x) {input : Text} {ts : List Resolved}
    (hi : ∀ x ∈ input, P x) (h : T.Run input ts) : ∀ x ∈ outputOf ts, P x := by
  intro x hx
  obtain ⟨o, ho, hx⟩ := List.mem_flatMap.1 hx
  obtain ⟨i, hi', rfl⟩ := List.mem_iff_getElem.1 ho
  have hn := h.each i hi'
  unfold PassTable.next at hn
  split at hn
  · next o' hm =>
    cases hn
    obtain ⟨line, hline, y, hy, e⟩ := choices_offer (List.mem_filter.1 (lastHeaviest_mem hm)).1
    rw [e] at hx
    obtain ⟨a, ha, hx⟩ := List.mem_flatMap.1 hx
    have hw := hl line hline a ha
    have hyg : ∀ x ∈ y, P x := fun x hx => hi x (hy x hx)
    cases a with
    | string s => exact hw x hx
    | dots s => exact hw x hx
    | replace => exact hyg x hx
    | swapClass n =>
      simp only [actionText] at hx
      split at hx
      · next s hg => exact swap_given (hs n s hg) hyg x hx
      · cases hx
    | _ => cases hx
  · obtain ⟨c, hc, e⟩ := Option.map_eq_some_iff.1 hn
    rw [← e] at hx
    rw [List.mem_singleton.1 hx]
    exact hi c (List.mem_of_mem_drop (List.mem_of_mem_head? hc))

theorem pass_given {sys : Sys} {rules : List Anchored} {P : Char → Prop}
    (hP : ∀ r ∈ rules, ∀ x ∈ r.rule.swapText, P x) {d : Direction} {k : PassKind}
    (hk : ∀ r ∈ rules, r.rule.AllowedIn d → ∀ test action cons, r.rule = .pass k test action cons → ∀ a ∈ action, ∀ x ∈ a.written, P x)
    {steps : List Transform} (h : PassSteps sys rules d k steps) {cs : Case} {spans : List Span} {input output : Text}
    (hi : ∀ x ∈ input, P x) (ht : Pipeline.Translates cs spans input steps output) : ∀ x ∈ output, P x := by
  cases h with
  | none => rw [ht]; exact hi
  | one step _ h =>
    obtain ⟨mid, ⟨ts, h1, rfl⟩, rfl⟩ := ht
    refine run_given (fun name s hg m hm x hx => ?_) ?_ hi ((h cs spans input ts).1 h1)
    · obtain ⟨r, hr, h⟩ := swaps_text sys.alpha rules hg m hm x hx
      exact hP r hr x h
    intro line hline a ha x hx
    obtain ⟨r, hr, cons, er, -⟩ := mem_passRules.1 (List.mem_filter.1 hline).1
    exact hk r ((List.mem_filter.1 hr).1) (by simpa using (isDirection_iff r.rule d).1 ((List.mem_filter.1 hr).2)) _ _ _ er a ha x hx

/-- What the action of a `context`, `pass2`, `pass3` or `pass4` line writes, the line gives. -/
theorem action_given {rules : List Anchored} {d : Direction} {k : PassKind} (hk : k ≠ .correct) : ∀ r ∈ rules,
    r.rule.AllowedIn d → ∀ test action cons, r.rule = .pass k test action cons → ∀ a ∈ action, ∀ x ∈ a.written, Given rules x := by
  intro r hr _ test action cons e a ha x hx
  refine .line hr ?_
  rw [e]
  have : x ∈ action.flatMap ActionInstr.written := List.mem_flatMap.2 ⟨a, ha, hx⟩
  cases k <;> first | exact absurd rfl hk | exact this

/-- **C83.** Everything that a forward translation writes is given by the lines of the table: each character of the translation is
a cell of the dots operand of a line, a character of the action of a `context`, `pass2`, `pass3` or `pass4` line, a replacement
of a class, or one of the cells built in for unknown characters — provided that no `context` line copies the text it reads. -/
theorem C83_written_from_lines {sys : Sys} {rules : List Anchored} {steps : List Transform} (ht : TableRules rules)
    (h : Pipeline.Compiles sys rules .forward steps) (hn : NoCopying rules) {cs : Case} {spans : List Span} {input output : Text}
    (hr : Pipeline.Translates cs spans input steps output) : ∀ c ∈ output, Given rules c := by
  obtain ⟨correct, p, pass2, pass3, pass4, e, hp, -, g2, g3, g4⟩ := C11_stages sys rules .forward steps h
  have hw := ht.passWritten
  rw [e] at hr
  obtain ⟨m4, hr, t4⟩ := (C11_composition cs spans _ pass4 input output).1 hr
  obtain ⟨m3, hr, t3⟩ := (C11_composition cs spans _ pass3 input m4).1 hr
  obtain ⟨m2, hr, t2⟩ := (C11_composition cs spans _ pass2 input m3).1 hr
  obtain ⟨m1, -, t1⟩ := (C11_composition cs spans correct _ input m2).1 hr
  obtain ⟨mid, ⟨ts, t1, rfl⟩, rfl⟩ := t1
  have hmain : ∀ x ∈ outputOf ts, Given rules x := by
    intro x hx
    obtain ⟨o, ho, hx⟩ := List.mem_flatMap.1 hx
    obtain ⟨done, rest, e⟩ := List.append_of_mem ho
    refine Given.more (fun r hr => (List.mem_filter.1 hr).1) (explained_given (fun r hr => hw r ((List.mem_filter.1 hr).1)) ?_
      (C56_main_stage_explained sys _ .forward _ p hp cs m1 spans ts t1 done o rest e) x hx)
    intro r hr test action cons er
    obtain ⟨h1, h2⟩ := List.mem_filter.1 hr
    exact hn r h1 (by simpa using (isDirection_iff r.rule .forward).1 h2) test action cons er
  have hid : ∀ r ∈ rules, ∀ x ∈ r.rule.swapText, Given rules x := fun _ hr x h => .line hr (swapText_written x h)
  exact pass_given hid (action_given (by decide)) (g4.passSteps (.inr rfl) hw)
    (pass_given hid (action_given (by decide)) (g3.passSteps (.inr rfl) hw)
      (pass_given hid (action_given (by decide)) (g2.passSteps (.inr rfl) hw) hmain t2) t3) t4

/-! ## Only cells -/

/-- If it is a multipass line, the dots of its action are cells. -/
def Rule.DotsWritten : Rule → Prop
  | .pass _ _ action _ => ∀ s, .dots s ∈ action → ∀ c ∈ s, IsCell c
  | _ => True

theorem toText_cells (cells : Cells) : ∀ c ∈ cells.toText, IsCell c := by
  intro c hc
  obtain ⟨cell, -, rfl⟩ := List.mem_map.1 hc
  exact ⟨cell, rfl⟩

theorem actionsSrc_dots {w : Text} {as : List ActionInstr} (h : ActionsSrc w as) : ∀ s, .dots s ∈ as → ∀ c ∈ s, IsCell c := by
  induction h with
  | nil => intro s hs; cases hs
  | cons src rest a as h _ ih =>
    intro s hs
    rcases List.mem_cons.1 hs with e | hs
    · subst e
      cases h with
      | dots ds cells => exact toText_cells cells
    · exact ih s hs

theorem pAction_dots : P.Ensures pAction fun as => ∀ s, .dots s ∈ as → ∀ c ∈ s, IsCell c := P.Ensures.conv fun s as _ h => by
  cases hp : parseAction s with
  | error e => rw [hp] at h; cases h
  | ok qs =>
    rw [hp, Except.toOption, Option.some.injEq] at h
    subst h
    exact actionsSrc_dots ((C55_action_grammar s qs).mp hp).1

theorem operands_dotsWritten (op : Opcode) (cons : RuleCons) (withs : List WithClass) :
    P.Ensures (operands op cons withs) Rule.DotsWritten := by
  cases op <;> simp only [operands] <;>
    first
    | exact P.Ensures.pure trivial
    | (repeat
        first
        | exact P.Ensures.pure trivial
        | exact P.Ensures.pure (by assumption)
        | refine P.Ensures.bind pTest_written fun _ _ => ?_
        | refine P.Ensures.bind pAction_dots fun _ _ => ?_
        | refine P.Ensures.bind pManyNames_ensures fun _ _ => ?_
        | refine P.Ensures.bind P.Ensures.require fun _ _ => ?_
        | refine P.Ensures.bind pNext_ensures fun _ _ => ?_
        | refine P.Ensures.bind pNextOpt_ensures fun _ _ => ?_
        | refine P.Ensures.bind P.Ensures.any fun _ _ => ?_)

theorem parseLine_dotsWritten {line : Text} {rule : Rule} (h : parseLine line = some rule) : rule.DotsWritten := by
  rw [parseLine, Option.map_eq_some_iff] at h
  obtain ⟨⟨r, rest⟩, h, rfl⟩ := h
  rw [pRule] at h
  split at h
  · cases h
  · next cons ts hc =>
    have h1 := (pConstraints_ensures _ _ _ (tokens_ne line) hc).2
    have h2 := pWithMatches_ne _ (pWithClasses_ne ts h1)
    simp only at h
    split at h
    · cases h
    · next word us hw =>
      rw [hw] at h2
      split at h
      · cases h
      · split at h
        · exact (operands_dotsWritten _ _ _ us r rest (fun t ht => h2 t (by simp [ht])) h).1
        · cases h

/-! ### Every rule of a table comes from a line -/

/-- The rule comes from a line, or it is a hyphenation dictionary that an `include` line has become. -/
def FromText (r : Rule) : Prop := (∃ line, parseLine line = some r) ∨ ∃ path, r = .includeHyphenation path

theorem parseTable_fromText {text : Text} {path : Option Text} {rules : List (Rule × Loc)}
    (h : parseTable text path = .ok rules) : ∀ r ∈ rules, FromText r.1 := by
  intro r hr
  obtain ⟨line, -, -, hp⟩ := (mem_parseTable h r.1).mp ⟨r.2, hr⟩
  exact .inl ⟨line, hp⟩

theorem inlined_fromText {fs : Files} {I : Text → List (Rule × Loc) → Prop} (hI : ∀ f o, I f o → ∀ r ∈ o, FromText r.1)
    {rules out : List (Rule × Loc)} (h : Inlined fs I rules out) (hr : ∀ r ∈ rules, FromText r.1) :
    ∀ r ∈ out, FromText r.1 := by
  induction h with
  | done => exact hr
  | rule r loc rest out hn more ih =>
    intro x hx
    rw [List.mem_cons] at hx
    rcases hx with rfl | hx
    · exact hr _ (by simp)
    · exact ih (fun y hy => hr y (by simp [hy])) x hx
  | dictionary file path loc rest out hd hf more ih =>
    intro x hx
    rw [List.mem_cons] at hx
    rcases hx with rfl | hx
    · exact .inr ⟨_, rfl⟩
    · exact ih (fun y hy => hr y (by simp [hy])) x hx
  | table file loc rest inner out hd hi more ih =>
    intro x hx
    rw [List.mem_append] at hx
    rcases hx with hx | hx
    · exact hI _ _ hi x hx
    · exact ih (fun y hy => hr y (by simp [hy])) x hx

theorem expandsTo_fromText {fs : Files} : ∀ {n : Nat} {file : Text} {out : List (Rule × Loc)}, ExpandsTo fs n file out →
    ∀ r ∈ out, FromText r.1
  | 0, _, _, h => h.elim
  | n + 1, file, out, h => by
    obtain ⟨path, rules, -, -, ht, hi⟩ := h
    refine inlined_fromText (fun f o h => expandsTo_fromText h) hi ?_
    rw [tableFile] at ht
    split at ht
    · cases ht
    · split at ht
      · next rules' hp => rw [Except.ok.injEq] at ht; subst ht; exact parseTable_fromText hp
      · cases ht

theorem allTables_fromText {fs : Files} : ∀ {files : List Text} {rules : List (Rule × Loc)}, allTables fs files = .ok rules →
    ∀ r ∈ rules, FromText r.1
  | [], rules, h => by rw [allTables, Except.ok.injEq] at h; subst h; simp
  | file :: files, rules, h => by
    rw [allTables] at h
    split at h
    · cases h
    · next rs he =>
      split at h
      · cases h
      · next more hm =>
        rw [Except.ok.injEq] at h
        subst h
        intro r hr
        rw [List.mem_append] at hr
        rcases hr with hr | hr
        · exact expandsTo_fromText (expandTable_sound fs _ _ _ _ he) r hr
        · exact allTables_fromText hm r hr

theorem TableRules.fromText {rules : List Anchored} (h : TableRules rules) : ∀ r ∈ rules, FromText r.rule := by
  intro r hr
  cases h with
  | source text path rules h => obtain ⟨loc, hm⟩ := mem_anchor hr; exact parseTable_fromText h _ hm
  | files fs files rules h => obtain ⟨loc, hm⟩ := mem_anchor hr; exact allTables_fromText h _ hm

theorem flatMap_cells (l : List Cells) : ∀ c ∈ l.flatMap Cells.toText, IsCell c := by
  intro c hc
  obtain ⟨cells, -, hc⟩ := List.mem_flatMap.1 hc
  exact toText_cells cells c hc

theorem brailleWritten_cells (b : Braille) : ∀ c ∈ b.written, IsCell c := by
  cases b with
  | implicit => intro c hc; cases hc
  | explicit cells => exact toText_cells cells

theorem written_cells {rules : List Anchored} (ht : TableRules rules) (hn : NoTexts rules) {r : Anchored} (hr : r ∈ rules) :
    ∀ c ∈ r.rule.written, IsCell c := by
  have hd : r.rule.DotsWritten := by
    rcases ht.fromText r hr with ⟨line, h⟩ | ⟨path, h⟩
    · exact parseLine_dotsWritten h
    · rw [h]; trivial
  cases e : r.rule
  case swapcd n cs ds => exact flatMap_cells _
  case swapdd n cs ds => exact flatMap_cells _
  case swapcc n cs rp => exact hn.swaps r hr n cs rp e
  case pass k test action cons =>
    rw [e] at hd
    intro c hc
    by_cases hk : k = .correct
    · subst hk; cases hc
    · have hc : c ∈ action.flatMap ActionInstr.written := by cases k <;> first | exact absurd rfl hk | exact hc
      obtain ⟨a, ha, hc⟩ := List.mem_flatMap.1 hc
      cases a with
      | string s => exact hn.strings r hr k test action cons e hk s ha c hc
      | dots s => exact hd s ha c hc
      | _ => cases hc
  all_goals first
    | exact toText_cells _
    | exact brailleWritten_cells _
    | (intro c hc; cases hc; done)

/-- **C83.** A forward translation consists of braille cells only, whatever the text, if the table does not say otherwise: no
`context` line copies the text it reads, and no strings of characters are given to be written from the main stage on. -/
theorem C83_only_cells {sys : Sys} {rules : List Anchored} {steps : List Transform} (ht : TableRules rules)
    (h : Pipeline.Compiles sys rules .forward steps) (hn : NoCopying rules) (hs : NoTexts rules) {cs : Case} {spans : List Span}
    {input output : Text} (hr : Pipeline.Translates cs spans input steps output) : ∀ c ∈ output, IsCell c := by
  intro c hc
  rcases C83_written_from_lines ht h hn hr c hc with ⟨r, hm, hc⟩ | ⟨x, cell, -, rfl⟩
  · exact written_cells ht hs hm c hc
  · exact ⟨cell, rfl⟩

/-- **C83.** If moreover no line uses one of the dots 9 to f, the translation consists of characters of the Unicode block for
braille. -/
theorem C83_braille_block {sys : Sys} {rules : List Anchored} {steps : List Transform} (ht : TableRules rules)
    (h : Pipeline.Compiles sys rules .forward steps) (hn : NoCopying rules)
    (hs : ∀ r ∈ rules, ∀ c ∈ r.rule.written, 0x2800 ≤ c.toNat ∧ c.toNat ≤ 0x28FF) {cs : Case} {spans : List Span}
    {input output : Text} (hr : Pipeline.Translates cs spans input steps output) :
    ∀ c ∈ output, 0x2800 ≤ c.toNat ∧ c.toNat ≤ 0x28FF := by
  intro c hc
  rcases C83_written_from_lines ht h hn hr c hc with ⟨r, hm, hc⟩ | ⟨x, cell, hm, rfl⟩
  · exact hs r hm c hc
  · have : ∀ p ∈ builtinCells, 0x2800 ≤ p.2.toUnicode.toNat ∧ p.2.toUnicode.toNat ≤ 0x28FF := by decide +kernel
    exact this _ hm

/-! ## Concrete cases -/

def cellsTable : Text := "space \\s 0\nlowercase a 1\nlowercase b 12\nlowercase c 14\nalways ab 3\ncontext \"b\"[\"c\"]\"a\" @6\n\
swapdd sw 1,12 3,4-5\npass2 @6[%sw.] %sw\npass3 @14 *@3\nnumsign 3456\n".toList

def cellsRules : List Anchored := match parseTable cellsTable none with
  | .ok rules => anchor rules
  | .error _ => []

theorem cellsRules_table : TableRules cellsRules := by
  have h : ∃ rules, parseTable cellsTable none = .ok rules := by
    have : (match parseTable cellsTable none with | .ok _ => true | .error _ => false) = true := by decide +kernel
    split at this
    · next rules h => exact ⟨rules, h⟩
    · cases this
  obtain ⟨rules, h⟩ := h
  have : cellsRules = anchor rules := by unfold cellsRules; rw [h]
  rw [this]
  exact .source _ _ _ h

theorem noCopying_of_check {rules : List Anchored} (h : (rules.all fun r => match r.rule with
      | .pass .context _ action _ => action.all fun a => match a with
        | .replace | .swapClass _ => false
        | _ => true
      | _ => true) = true) : NoCopying rules := by
  intro r hr _ test action cons e a ha
  have := List.all_eq_true.1 h r hr
  rw [e] at this
  have := List.all_eq_true.1 this a ha
  cases a <;> simp_all

theorem noTexts_of_check {rules : List Anchored} (h : (rules.all fun r => match r.rule with
      | .pass k _ action _ => k == .correct || action.all fun a => match a with
        | .string _ => false
        | _ => true
      | .swapcc _ _ _ => false
      | _ => true) = true) : NoTexts rules := by
  constructor
  · intro r hr k test action cons e hk s hs
    have := List.all_eq_true.1 h r hr
    rw [e] at this
    simp only [Bool.or_eq_true, beq_iff_eq] at this
    have := List.all_eq_true.1 (this.resolve_left hk) _ hs
    simp at this
  · intro r hr name chars replacement e
    have := List.all_eq_true.1 h r hr
    rw [e] at this
    simp at this

/-- The hypotheses of C83 are met by a table with a `context` line, a class of cells, and two passes over cells; the text has
characters that the table does not know. -/
example : TableRules cellsRules ∧ NoCopying cellsRules ∧ NoTexts cellsRules ∧
    SourceTranslates demoSys asciiCase cellsTable .forward [] "abca bca 1?".toList "⠄⠉⠄⠁⠀⠃⠠⠁⠀⠳⠭⠒⠂⠳⠭⠒⠋".toList :=
  ⟨cellsRules_table, noCopying_of_check (by decide +kernel), noTexts_of_check (by decide +kernel),
    runSource_sound (fuel := 60) (by decide +kernel)⟩

/-- Without its hypothesis C83 is false: a `context` line that copies what it reads puts characters into the braille. -/
theorem C83_copying_wrong : SourceTranslates demoSys asciiCase "lowercase a 1\nlowercase b 12\ncontext \"a\" *\n".toList .forward []
      "aba".toList "a⠃a".toList ∧ ¬ IsCell 'a' := by
  refine ⟨runSource_sound (fuel := 40) (by decide +kernel), ?_⟩
  rintro ⟨cell, h⟩
  have := congrArg Char.toNat h
  rw [toNat_toUnicode] at this
  have ha : 'a'.toNat = 97 := rfl
  have := C31_range cell
  cases hv : cell.any Dot.isVirtual with
  | false => have := this.1 hv; omega
  | true => have := this.2 hv; omega

end Louis
