import Verif.Props.Show
import Verif.Props.Conditions
import Verif.Props.Panics
import Verif.Props.LineGrammar
import Verif.Props.BackwardTrace
import Verif.Lemmas.Compiles

/-!
# C70: the trace of a translation is shown, or the program panics
-/

namespace Louis

open Regexp (Fault)

variable {ord : Orders}

/-! ## Lines that the translator takes no notice of are no origins -/

theorem other_ops {ctx : TableCtx} {d : Direction} {ls : List Char} {ld : List Text} {r : Anchored} (h : r.rule.IsOther) :
    r.firstOps = [] ∧ r.opsD ctx d ls ld = [] := by
  obtain ⟨rule, id⟩ := r
  cases rule
  case other => exact ⟨rfl, rfl⟩
  all_goals exact h.elim

theorem tableOps_notOther {ctx : TableCtx} {d : Direction} {rules : List Anchored} : ∀ op ∈ tableOps ctx d rules, ∀ o,
    op.origin? = some o → ∃ r ∈ rules, ¬ r.rule.IsOther ∧ o = r.origin := by
  intro op hop o ho
  rcases List.mem_append.mp hop with h | h
  · obtain ⟨r, hr, h⟩ := List.mem_flatMap.mp h
    refine ⟨r, hr, fun hn => ?_, ?_⟩
    · rw [(other_ops (ctx := ctx) (d := d) (ls := []) (ld := []) hn).1] at h; cases h
    unfold Anchored.firstOps at h
    split at h
    · rw [List.mem_singleton.mp h] at ho; injection ho with ho; exact ho.symm
    · rw [List.mem_singleton.mp h] at ho; injection ho with ho; exact ho.symm
    · cases h
  · obtain ⟨r, hr, h⟩ := List.mem_flatMap.mp h
    refine ⟨r, hr, fun hn => ?_, ?_⟩
    · rw [(other_ops hn).2] at h; cases h
    unfold Anchored.opsD at h
    cases e : r.ops ctx d (litdigitChars d rules) (letterDotsOf d rules) with
    | error _ => rw [e] at h; cases h
    | ok ops => rw [e] at h; exact ops_origin e op h o ho

theorem MainStage.origin_notOther {sys : Sys} {ctx : TableCtx} {d : Direction} {rules : List Anchored} {p : Primary}
    (h : MainStage sys ctx d rules p) {cs : Case} {input : Text} {spans : List Span} {ts : List Resolved}
    (ht : p.Traces cs input spans ts) : ∀ tr ∈ ts, ∀ o, tr.origin = some o → ∃ r ∈ rules, ¬ r.rule.IsOther ∧ o = r.origin := by
  intro tr htr o ho
  obtain ⟨e, cons, ind, -, -, h3, h4⟩ := ht
  obtain ⟨a, b, rfl⟩ := List.append_of_mem htr
  rcases trace_item h.built (h.ind_empty h3) h4 rfl with ⟨pos, hp⟩ | ⟨s, -, hs, -⟩
  · obtain ⟨r, hr, dots, hd, rfl⟩ := h.signs tr (precompute_signs _ _ _ _ _ h3 pos tr hp)
    injection ho with ho
    refine ⟨r, hr, fun hn => ?_, ho.symm⟩
    obtain ⟨rule, id⟩ := r
    cases rule
    case other => cases hd
    all_goals exact hn.elim
  · obtain ⟨op, hop, g⟩ := hs.op_origin h.built.ok ho
    exact tableOps_notOther op hop o g

/-- The origin of whatever a translation writes is a line that the translator looks at. -/
theorem origin_notOther {sys : Sys} {rules : List Anchored} {d : Direction} {steps : List Transform}
    (h : Pipeline.Compiles sys rules d steps) {cs : Case} {spans : List Span} {input : Text} {tss : List (List Resolved)}
    (ht : Pipeline.Traces cs spans input steps tss) :
    ∀ ts ∈ tss, ∀ tr ∈ ts, ∀ o, tr.origin = some o → ∃ r ∈ rules, ¬ r.rule.IsOther ∧ o = r.origin := by
  have hsteps := compiles_steps h
  clear h
  induction steps generalizing input tss with
  | nil => rw [show tss = [] from ht]; intro ts hts; cases hts
  | cons s steps ih =>
    obtain ⟨ts₀, rest, rfl, h1, h2⟩ := ht
    intro ts hts tr htr o ho
    rcases List.mem_cons.mp hts with rfl | hts
    · have mp : ∀ (t : MultipassTable) (k : PassKind), compilePass ((TableCtx.compile sys.alpha rules).stageClasses t.stage)
          (TableCtx.compile sys.alpha rules).swaps d t.stage (rulesOf rules d k) = .ok t.patterns →
          t.Traces cs.lower input ts → ∃ r ∈ rules, ¬ r.rule.IsOther ∧ o = r.origin := by
        intro t k hc ht
        rcases mp_origin hc ht tr htr with hn | ⟨pr, hpr, hn⟩
        · rw [ho] at hn; cases hn
        · rw [ho] at hn
          injection hn with hn
          obtain ⟨r, hr, e⟩ := List.mem_filterMap.mp hpr
          obtain ⟨hr, ha⟩ := mem_allowed.mp hr
          refine ⟨r, hr, fun hno => ?_, ?_⟩
          · obtain ⟨rule, id⟩ := r
            cases rule
            case other => cases e
            all_goals exact hno.elim
          rw [hn]
          split at e
          · split at e
            · injection e with e; subst e; rfl
            · cases e
          · cases e
      rcases hsteps s (List.mem_cons_self ..) with ⟨t, k, hs | hs, hc⟩ | ⟨p, rfl, hp⟩
      · subst hs; exact mp t k hc h1
      · subst hs; exact mp t k hc h1
      · obtain ⟨r, hr, hn, e⟩ := hp.origin_notOther h1 tr htr o ho
        obtain ⟨hr, ha⟩ := mem_allowed.mp hr
        exact ⟨r, hr, hn, e⟩
    · exact ih h2 (fun x hx => hsteps x (List.mem_cons_of_mem _ hx)) ts hts tr htr o ho

/-! ## From the words of a line -/

theorem ruleSrc_cons {cons : RuleCons} {withs : List WithClass} {body : List Text} {r : Rule} (h : RuleSrc cons withs body r) :
    ∃ op operands, body = op :: operands := by
  cases h <;> exact ⟨_, _, rfl⟩

/-- Every accepted line has an opcode and operands. -/
theorem lineReads_of_parse {line : Text} {r : Rule} (h : parseLine line = some r) : ∃ op operands, LineReads (tokens line) op operands r := by
  have h := (C58_line_grammar line r).mp h
  generalize tokens line = words at h ⊢
  obtain ⟨ps, ws, es, body, rest, cons, withs, _, hp, hw, he, hb⟩ := h
  obtain ⟨op, operands, rfl⟩ := ruleSrc_cons hb
  exact ⟨op, operands, .intro ps ws es rest op operands cons withs r hp hw he hb⟩

/-! ## Traces -/

theorem shownOrigin_line {text : Text} {table : List (Rule × Loc)} (ho : Lists ord) (hp : parseTable text none = .ok table)
    {r : Anchored} (hr : r ∈ anchor table) (hn : ¬ r.rule.IsOther) {t : Resolved} (e : t.origin = some r.origin) :
    (∃ op operands, FromLine text (anchor table) t op operands ∧ op ∈ unshownOpcodes.map (·.toList) ∧
      shownOrigin ord (anchor table) t.origin = .error .panic) ∨
    ∃ op operands ss, FromLine text (anchor table) t op operands ∧ op ∉ unshownOpcodes.map (·.toList) ∧
      ShownLine op operands ss ∧ shownOrigin ord (anchor table) t.origin = .ok ([' '].intercalate (op :: ss)) := by
  have hshown : shownOrigin ord (anchor table) t.origin = r.rule.shown ord := by
    rw [e, shownOrigin]
    cases hf : (anchor table).find? (fun r' => r'.origin == r.origin) with
    | none => exact absurd (List.find?_eq_none.mp hf r hr) (by simp)
    | some r' =>
      have := List.find?_some hf
      rw [(anchor_distinct table).origin hr (List.mem_of_find?_eq_some hf) (by rw [eq_of_beq this])]
  obtain ⟨loc, hm⟩ := mem_anchor hr
  obtain ⟨line, hl, -, hline⟩ := (mem_parseTable hp r.rule).mp ⟨loc, hm⟩
  obtain ⟨op, operands, hreads⟩ := lineReads_of_parse hline
  have hfrom : FromLine text (anchor table) t op operands := ⟨r, hr, e, line, hl, hline, hreads⟩
  have hb : ∃ cons withs, RuleSrc cons withs (op :: operands) r.rule := by
    generalize r.rule = rule at hreads
    generalize tokens line = words at hreads
    cases hreads with
    | intro _ _ _ _ _ _ cons withs _ _ _ _ hb => exact ⟨cons, withs, hb⟩
  obtain ⟨cons, withs, hb⟩ := hb
  rw [hshown]
  rcases C70_line_shown ho hb hn with ⟨h1, h2⟩ | ⟨h1, ss, h2, h3⟩
  · exact .inl ⟨op, operands, hfrom, h1, h2⟩
  · exact .inr ⟨op, operands, ss, hfrom, h1, h2, h3⟩

theorem traceRowsOf_shown {text : Text} {table : List (Rule × Loc)} (ho : Lists ord) (hp : parseTable text none = .ok table) :
    ∀ (items : List (Nat × Resolved)),
      (∀ item ∈ items, ∀ o, item.2.origin = some o → ∃ r ∈ anchor table, ¬ r.rule.IsOther ∧ o = r.origin) →
      (∃ rows, traceRowsOf ord (anchor table) items = .ok rows ∧ RowsShown text (anchor table) items rows) ∨
      (traceRowsOf ord (anchor table) items = .error .panic ∧
        ∃ item ∈ items, ∃ op operands, FromLine text (anchor table) item.2 op operands ∧ op ∈ unshownOpcodes.map (·.toList))
  | [], _ => .inl ⟨[], rfl, .nil⟩
  | (n, t) :: items, h => by
    have ih := traceRowsOf_shown ho hp items (fun item hi => h item (List.mem_cons_of_mem _ hi))
    have one : (∃ s, shownOrigin ord (anchor table) t.origin = .ok s ∧
          RowShown text (anchor table) (n, t) ⟨n, t.input, t.output, s, (stageNamed t.stage).toList⟩) ∨
        (shownOrigin ord (anchor table) t.origin = .error .panic ∧
          ∃ op operands, FromLine text (anchor table) t op operands ∧ op ∈ unshownOpcodes.map (·.toList)) := by
      cases e : t.origin with
      | none => exact .inl ⟨[], rfl, .silent n t e⟩
      | some o =>
        obtain ⟨r, hr, hn, rfl⟩ := h (n, t) (List.mem_cons_self ..) o e
        rw [← e]
        rcases shownOrigin_line ho hp hr hn e with ⟨op, operands, h1, h2, h3⟩ | ⟨op, operands, ss, h1, h2, h3, h4⟩
        · exact .inr ⟨h3, op, operands, h1, h2⟩
        · exact .inl ⟨_, h4, .line n t op operands ss h1 h2 h3⟩
    rw [traceRowsOf, stage_shown]
    rcases one with ⟨s, e, hrow⟩ | ⟨e, op, operands, h1, h2⟩
    · rw [e]
      rcases ih with ⟨rows, e', hrows⟩ | ⟨e', item, hi, hbad⟩
      · exact .inl ⟨_, by simp only [e'], .cons _ _ _ _ hrow hrows⟩
      · exact .inr ⟨by simp only [e'], item, List.mem_cons_of_mem _ hi, hbad⟩
    · rw [e]
      exact .inr ⟨rfl, _, List.mem_cons_self .., op, operands, h1, h2⟩

/-- A row that is shown does not come from a line that cannot be shown. -/
theorem rowsShown_good {text : Text} {rules : List Anchored} (hids : DistinctIds rules) : ∀ {items : List (Nat × Resolved)} {rows : List TraceRow},
    RowsShown text rules items rows → rows.length = items.length ∧
      ∀ item ∈ items, item.2.origin = none ∨ ∃ op operands, FromLine text rules item.2 op operands ∧ op ∉ unshownOpcodes.map (·.toList)
  | _, _, .nil => ⟨rfl, fun _ h => nomatch h⟩
  | _, _, .cons _ _ _ _ h more => by
    obtain ⟨ih, ih'⟩ := rowsShown_good hids more
    refine ⟨by simp [ih], fun item hi => ?_⟩
    rcases List.mem_cons.mp hi with rfl | hi
    · cases h with
      | silent n t h => exact .inl h
      | line n t op operands ss h hop hs => exact .inr ⟨op, operands, h, hop⟩
    · exact ih' item hi

/-- **C70.**  The trace of a translation is shown, a row for each item, with the opcode and the operands of the line it comes from;
or, if one of them comes from a line with one of the opcodes listed in `unshownOpcodes`, the program panics. -/
theorem C70_trace_shown (ho : Lists ord) (sys : Sys) (text : Text) (table : List (Rule × Loc)) (hp : parseTable text none = .ok table)
    (d : Direction) (steps : List Transform) (h : Pipeline.Compiles sys (anchor table) d steps) (cs : Case) (spans : List Span)
    (input : Text) (tss : List (List Resolved)) (ht : Pipeline.Traces cs spans input steps tss) :
    (∃ rows, traceRows ord (anchor table) tss = .ok rows ∧ RowsShown text (anchor table) (shownTrace tss) rows) ∨
    (traceRows ord (anchor table) tss = .error .panic ∧
      ∃ item ∈ shownTrace tss, ∃ op operands, FromLine text (anchor table) item.2 op operands ∧ op ∈ unshownOpcodes.map (·.toList)) := by
  refine traceRowsOf_shown ho hp _ fun item hi o e => ?_
  obtain ⟨x, hx, rfl⟩ := List.mem_map.mp hi
  have hx' : x.1 ∈ tss.flatten.filter (fun t => t.stage == .main || t.origin.isSome) := by
    obtain ⟨a, b⟩ := x
    exact List.fst_mem_of_mem_zipIdx hx
  obtain ⟨ts, hts, htr⟩ := List.mem_flatten.mp (List.mem_filter.mp hx').1
  exact origin_notOther h ht ts hts x.1 htr o e

/-- A table none of whose lines has one of those opcodes never makes the trace panic. -/
theorem C70_never_panics_partial (ho : Lists ord) (sys : Sys) (text : Text) (table : List (Rule × Loc)) (hp : parseTable text none = .ok table)
    (d : Direction) (steps : List Transform) (h : Pipeline.Compiles sys (anchor table) d steps) (cs : Case) (spans : List Span)
    (input : Text) (tss : List (List Resolved)) (ht : Pipeline.Traces cs spans input steps tss)
    (hno : ∀ line ∈ lines text, ∀ w ∈ tokens line, w ∉ unshownOpcodes.map (·.toList)) :
    ∃ rows, traceRows ord (anchor table) tss = .ok rows ∧ RowsShown text (anchor table) (shownTrace tss) rows := by
  rcases C70_trace_shown ho sys text table hp d steps h cs spans input tss ht with h | ⟨-, item, -, op, operands, ⟨r, -, -, line, hl, -, hr⟩, hop⟩
  · exact h
  · refine absurd hop (hno line hl op ?_)
    generalize tokens line = words at hr
    cases hr
    simp

/-- The order in which the items are numbered is that of the trace. -/
theorem C70_row_numbers (tss : List (List Resolved)) (i : Nat) (hi : i < (shownTrace tss).length) : ((shownTrace tss)[i]).1 = i + 1 := by
  simp [shownTrace]

/-! ## Concrete traces -/

/-- The rows of `louis trace`, computed with a bound on the number of rounds. -/
def runTrace (ord : Orders) (sys : Sys) (cs : Case) (fuel : Nat) (text : Text) (d : Direction) (input : Text) :
    Option (Except Fault (List TraceRow)) :=
  match parseTable text none with
  | .error _ => none
  | .ok table => (Pipeline.run sys cs fuel (anchor table) d [] input).map (traceRows ord (anchor table))

theorem runTrace_sound {sys : Sys} {cs : Case} {fuel : Nat} {text : Text} {d : Direction} {input : Text}
    {res : Except Fault (List TraceRow)} (h : runTrace ord sys cs fuel text d input = some res) :
    ∃ table steps tss, parseTable text none = .ok table ∧ Pipeline.Compiles sys (anchor table) d steps ∧
      Pipeline.Traces cs [] input steps tss ∧ traceRows ord (anchor table) tss = res := by
  unfold runTrace at h
  split at h
  · cases h
  · next table hp =>
    cases e : Pipeline.run sys cs fuel (anchor table) d [] input with
    | none => rw [e] at h; cases h
    | some tss =>
      rw [e] at h
      injection h with h
      obtain ⟨steps, h1, h2⟩ := Pipeline.run_sound e
      exact ⟨table, steps, tss, hp, compile_compiles h1, h2, h⟩


/-- The elements of sets are shown in the order in which they are listed. -/
def asListed : Orders := ⟨id, id⟩

theorem lists_asListed : Lists asListed := ⟨fun _ => .refl _, fun _ => .refl _⟩

/-- Whether the result is that the program panics. -/
def panicked {α : Type} : Except Fault α → Bool
  | .error .panic => true
  | _ => false

theorem panicked_eq {α : Type} {res : Except Fault α} (h : panicked res = true) : res = .error .panic := by
  unfold panicked at h
  split at h
  · rfl
  · cases h

/-- **C70 is false of the code**: the table `lowercase a 1`, `lowercase b 12`, `syllable ab 3` is accepted and translates `ab`, but
`louis trace` panics (`todo!()` in the `Display` of the rule). -/
theorem C70_trace_panics_wrong :
    SourceTranslates demoSys asciiCase "lowercase a 1\nlowercase b 12\nsyllable ab 3\n".toList .forward [] "ab".toList "⠄".toList ∧
    ∃ table steps tss, parseTable "lowercase a 1\nlowercase b 12\nsyllable ab 3\n".toList none = .ok table ∧
      Pipeline.Compiles demoSys (anchor table) .forward steps ∧ Pipeline.Traces asciiCase [] "ab".toList steps tss ∧
      traceRows asListed (anchor table) tss = .error .panic := by
  refine ⟨runSource_sound (fuel := 40) (by decide +kernel), ?_⟩
  have h : (runTrace asListed demoSys asciiCase 40 "lowercase a 1\nlowercase b 12\nsyllable ab 3\n".toList .forward "ab".toList).any panicked = true := by
    decide +kernel
  cases e : runTrace asListed demoSys asciiCase 40 "lowercase a 1\nlowercase b 12\nsyllable ab 3\n".toList .forward "ab".toList with
  | none => rw [e] at h; cases h
  | some res =>
    rw [e] at h
    obtain ⟨table, steps, tss, h1, h2, h3, h4⟩ := runTrace_sound e
    exact ⟨table, steps, tss, h1, h2, h3, h4.trans (panicked_eq h)⟩

/-- C70, what is false of the code: a class in a pattern is shown with the letter of another class and without `%`, so that the lines
`match %l a - 1` (after a small letter) and `match u a - 1` (after a `u`) are shown in the same way. -/
theorem C70_shown_ambiguous_wrong : ∃ r r', parseLine "match %l a - 1".toList = some r ∧ parseLine "match u a - 1".toList = some r' ∧
    r ≠ r' ∧ ∀ ord, Lists ord → r.shown ord = .ok "match u a - ⠁".toList ∧ r'.shown ord = .ok "match u a - ⠁".toList := by
  refine ⟨.matchRule [.attributes [.cls .lowercase]] ['a'] [.empty] (.explicit [[.d1]]) RuleCons.none,
    .matchRule [.characters ['u']] ['a'] [.empty] (.explicit [[.d1]]) RuleCons.none, by decide +kernel, by decide +kernel,
    by decide +kernel, ?_⟩
  intro ord ho
  have e : ord.attrs [.cls .lowercase] = [.cls .lowercase] := List.perm_singleton.mp (ho.1 _)
  refine ⟨?_, ?_⟩
  · simp only [Rule.shown, patternsShown, Pattern.shown, e]
    decide +kernel
  · simp only [Rule.shown, patternsShown, Pattern.shown]
    decide +kernel

/-- The table of the example below. -/
def shownTable : Text :=
  "space \\s 0\nlowercase a 1\nlowercase b 12\nalways ab 3-4\nafter letter endword b 5\ncorrect \"c\" \"a\"\npass2 @3 @6\n".toList

/-- Non-vacuity of C70: the trace of `cab b` (only the rule's opcode and operands are shown: not that `c` stood before `a`, nor the
condition `after letter`). -/
example : (runTrace asListed demoSys asciiCase 40 shownTable .forward "cab b".toList).map (·.toOption) =
    some (some [
      ⟨1, "c".toList, "a".toList, "correct \"c\" a".toList, "Pre".toList⟩,
      ⟨2, "a".toList, "⠁".toList, "lowercase a ⠁".toList, "Main".toList⟩,
      ⟨3, "ab".toList, "⠄⠈".toList, "always ab ⠄⠈".toList, "Main".toList⟩,
      ⟨4, " ".toList, "⠀".toList, "space   ⠀".toList, "Main".toList⟩,
      ⟨5, "b".toList, "⠃".toList, "lowercase b ⠃".toList, "Main".toList⟩,
      ⟨6, "⠄".toList, "⠠".toList, "pass2 @⠄ ⠠".toList, "Pass2".toList⟩]) := by
  decide +kernel

end Louis
