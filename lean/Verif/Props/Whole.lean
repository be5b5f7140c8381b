import Verif.Spec.Whole
import Verif.Spec.Each
import Verif.Props.SameLines
import Verif.Props.MainMore
import Verif.Props.PipelineTotal
import Verif.Lemmas.DecEq
import Verif.Props.Demo

/-!
# C07, C10 and C39 of whole translators
-/

namespace Louis

open Regexp (Fault)

/-! ## The stages of a trace -/

theorem stageText_shift {input : Text} {ts : List Resolved} {rest : List (List Resolved)} {i : Nat} {text : Text}
    (h : StageText (outputOf ts) rest i text) : StageText input (ts :: rest) (i + 1) text := by
  cases h with
  | first => exact .next (i := 0) rfl
  | next h => exact .next h

theorem stageText_unique {input : Text} {tss : List (List Resolved)} {i : Nat} {text text' : Text}
    (h : StageText input tss i text) (h' : StageText input tss i text') : text = text' := by
  cases h with
  | first => cases h'; rfl
  | next h =>
    cases h' with
    | next h' => rw [h] at h'; injection h' with h'; rw [h']

theorem traces_stage {cs : Case} {spans : List Span} : ∀ {steps : List Transform} {input : Text} {tss : List (List Resolved)},
    Pipeline.Traces cs spans input steps tss → tss.length = steps.length ∧ ∀ i s, steps[i]? = some s →
      ∃ text ts, StageText input tss i text ∧ tss[i]? = some ts ∧ s.Traces cs spans text ts
  | [], input, tss, h => by cases h; exact ⟨rfl, fun i s hs => by simp at hs⟩
  | step :: steps, input, tss, h => by
    obtain ⟨ts, rest, rfl, h1, h2⟩ := h
    obtain ⟨hl, ih⟩ := traces_stage h2
    refine ⟨by simp [hl], fun i s hs => ?_⟩
    cases i with
    | zero =>
      simp only [List.getElem?_cons_zero, Option.some.injEq] at hs
      subst hs
      exact ⟨input, ts, .first, rfl, h1⟩
    | succ i =>
      obtain ⟨text, ts', g1, g2, g3⟩ := ih i s (by simpa using hs)
      exact ⟨text, ts', stageText_shift g1, by simpa using g2, g3⟩

/-- **C07 of a translator.** There is one list of items for each stage; the inputs of the items of a `correct`, `pass2`, `pass3`
or `pass4` stage, put together, are the text that the stage reads. -/
theorem C07_translator {sys : Sys} {rules : List Anchored} {d : Direction} {steps : List Transform}
    (h : Pipeline.Compiles sys rules d steps) {cs : Case} {spans : List Span} {input : Text} {tss : List (List Resolved)}
    (ht : Pipeline.Traces cs spans input steps tss) : tss.length = steps.length ∧
      ∀ i text ts, StageText input tss i text → tss[i]? = some ts → (∀ p, steps[i]? ≠ some (.primary p)) →
        ts.flatMap (·.input) = text := by
  obtain ⟨hl, hs⟩ := traces_stage ht
  refine ⟨hl, fun i text ts hx hi hp => ?_⟩
  have hlt : i < steps.length := by rw [← hl]; exact (List.getElem?_eq_some_iff.1 hi).1
  have hsi : steps[i]? = some steps[i] := List.getElem?_eq_getElem hlt
  obtain ⟨text', ts', g1, g2, g3⟩ := hs i _ hsi
  have e1 := stageText_unique g1 hx
  rw [hi] at g2
  injection g2 with g2
  subst e1 g2
  rcases compiles_steps h steps[i] (List.getElem_mem hlt) with ⟨t, k, hk, hc⟩ | ⟨p, hk, -⟩
  · have : t.Traces cs.lower text' ts := by
      rcases hk with hk | hk <;> (rw [hk] at g3; exact g3)
    exact C07_trace_covers_input t ⟨_, _, _, _, hc⟩ cs.lower text' ts this
  · exact absurd (hsi.trans (by rw [hk])) (hp p)

/-- **C10 of a translator.** The inputs of the items of the main stage, put together, are the text that the stage reads, as far
as capitals are not considered, and have its length. -/
theorem C10_translator_partial {sys : Sys} {rules : List Anchored} {d : Direction} {steps : List Transform}
    (h : Pipeline.Compiles sys rules d steps) {cs : Case} {spans : List Span} {input : Text} {tss : List (List Resolved)}
    (ht : Pipeline.Traces cs spans input steps tss) :
    ∃ i p text ts, steps[i]? = some (.primary p) ∧ StageText input tss i text ∧ tss[i]? = some ts ∧
      Covered cs.lower ts text ∧ (ts.flatMap (·.input)).length = text.length ∧
      ((∀ c ∈ text, cs.lower c = [c]) → ts.flatMap (·.input) = text) := by
  obtain ⟨-, hs⟩ := traces_stage ht
  obtain ⟨correct, p, pass2, pass3, pass4, he, hp, -⟩ := C11_stages sys rules d steps h
  have hm : Transform.primary p ∈ steps := by
    rw [he]
    cases d <;> simp [inOrder]
  obtain ⟨i, hlt, hi⟩ := List.mem_iff_getElem.1 hm
  have hsi : steps[i]? = some (.primary p) := by rw [List.getElem?_eq_getElem hlt, hi]
  obtain ⟨text, ts, g1, g2, enriched, cons, ind, -, -, hind, g4⟩ := hs i _ hsi
  have m : MainStage sys (TableCtx.compile sys.alpha (allowedRules rules d)) d (allowedRules rules d) p := hp
  exact ⟨i, p, text, ts, hsi, g1, g2,
    C10_trace_covers_input_partial _ d _ p.table m.built cs cons _ (m.ind_empty hind) text ts g4,
    C10_length_exact _ d _ p.table m.built cs cons _ (m.ind_empty hind) text ts g4,
    fun hl => C10_lowercase_text_exact _ d _ p.table m.built cs cons _ (m.ind_empty hind) text hl ts g4⟩

/-! ## C39 -/

/-- Where the operations of the main stage come from. -/
theorem op_from_line {ctx : TableCtx} {d : Direction} {lit : List Char} {letterDots : List Text} {r : Anchored} {op : PrimOp}
    (hop : op ∈ r.firstOps ∨ op ∈ r.opsD ctx d lit letterDots) :
    match op with
    | .char c _ _ _ => (∃ dots, r.rule.Defines c dots) ∨ ∃ name b, r.rule = .base name c b
    | .matchRule _ _ _ _ _ => ∃ pre chars post dots cons, r.rule = .matchRule pre chars post dots cons
    | .context _ _ _ => ∃ test action cons, r.rule = .pass .context test action cons
    | .digitOverride c _ _ => r.rule.reads ctx.defs d = some [c]
    | _ => True := by
  obtain ⟨rule, id⟩ := r
  rcases hop with hop | hop
  · unfold Anchored.firstOps at hop
    split at hop
    · next h =>
      simp only at h; subst h
      cases List.mem_singleton.1 hop
      exact .inl ⟨_, .inr ⟨_, rfl, rfl⟩⟩
    · next h =>
      simp only at h; subst h
      cases List.mem_singleton.1 hop
      exact .inl ⟨_, .inl ⟨_, _, _, rfl, rfl⟩⟩
    · cases hop
  · unfold Anchored.opsD Anchored.ops at hop
    cases rule
    case charDef k c dots cons =>
      cases k <;> simp only [okOf, Option.getD_some, List.mem_append, List.mem_cons, List.not_mem_nil, or_false] at hop
      all_goals try (subst hop; exact .inl ⟨_, .inl ⟨_, _, _, rfl, rfl⟩⟩)
      all_goals
        rcases hop with hop | hop
        · first
            | (subst hop; exact .inl ⟨_, .inl ⟨_, _, _, rfl, rfl⟩⟩)
            | (split at hop
               · cases hop
               · cases List.mem_singleton.1 hop
                 exact .inl ⟨_, .inl ⟨_, _, _, rfl, rfl⟩⟩)
        · unfold Anchored.digitOps at hop
          split at hop
          · split at hop
            · cases List.mem_singleton.1 hop
              rfl
            · cases hop
          · cases hop
    case base name derived b =>
      simp only at hop
      split at hop
      · cases List.mem_singleton.1 hop
        exact .inr ⟨_, _, rfl⟩
      · cases hop
    case text k chars dots cons withs =>
      simp only at hop
      split at hop
      · cases hop
      · simp only [okOf, Option.getD_some, List.mem_map] at hop
        obtain ⟨_, -, rfl⟩ := hop
        trivial
    case matchRule pre chars post dots cons =>
      simp only at hop
      split at hop
      · cases hop
      · cases List.mem_singleton.1 hop
        exact ⟨_, _, _, _, _, rfl⟩
    case pass k test action cons =>
      cases k <;> simp only [okOf, Option.getD_some, List.mem_singleton, List.not_mem_nil] at hop
      subst hop
      exact ⟨_, _, _, rfl⟩
    all_goals try (cases hop; done)
    all_goals try (cases List.mem_singleton.1 hop; trivial)
    case comp6 | contraction | syllable | endnum =>
      simp only at hop
      split at hop
      · cases hop
      · cases List.mem_singleton.1 hop; trivial
    all_goals
      simp only [okOf, Option.getD_some, Anchored.signOps] at hop
      split at hop
      · cases List.mem_singleton.1 hop
        trivial
      · cases hop

theorem mem_tableOps {ctx : TableCtx} {d : Direction} {rules : List Anchored} {op : PrimOp} (h : op ∈ tableOps ctx d rules) :
    ∃ r ∈ rules, op ∈ r.firstOps ∨ op ∈ r.opsD ctx d (litdigitChars d rules) (letterDotsOf d rules) := by
  unfold tableOps at h
  rcases List.mem_append.1 h with h | h
  · obtain ⟨r, hr, h⟩ := List.mem_flatMap.1 h
    exact ⟨r, hr, .inl h⟩
  · obtain ⟨r, hr, h⟩ := List.mem_flatMap.1 h
    exact ⟨r, hr, .inr h⟩

/-- A character that the lines do not mention is unknown to the main stage. -/
theorem unknown_of_lines {ctx : TableCtx} {d : Direction} {rules : List Anchored} {lower : Char → List Char} {c : Char}
    (h : NotMentioned lower ctx.defs d rules c) : Unknown d (tableOps ctx d rules) lower c where
  noChar dots prec o ho := by
    obtain ⟨r, hr, ho⟩ := mem_tableOps ho
    rcases op_from_line ho with ⟨dots, hd⟩ | ⟨name, b, hb⟩
    · exact (h.notDefined r hr).1 dots hd
    · exact (h.notDefined r hr).2 name b hb
  noRule l hl e he hle := by
    have : ∃ r ∈ rules, r.rule.reads ctx.defs d = some (e.from d) := by
      rcases he with he | he | he
      · rw [trieRules_eq] at he
        obtain ⟨op, hop, ho⟩ := List.mem_filterMap.1 he
        obtain ⟨r, hr, hop⟩ := mem_tableOps hop
        exact ⟨r, hr, reads_of_ops hop (.inl ⟨_, ho⟩)⟩
      · obtain ⟨op, hop, ho⟩ := List.mem_filterMap.1 he
        obtain ⟨r, hr, hop⟩ := mem_tableOps hop
        refine ⟨r, hr, reads_of_ops hop (.inl ⟨true, ?_⟩)⟩
        cases op with
        | rule b x => cases b <;> simp_all [opEntry]
        | _ => simp at ho
      · obtain ⟨op, hop, ho⟩ := List.mem_filterMap.1 he
        obtain ⟨r, hr, hop⟩ := mem_tableOps hop
        refine ⟨r, hr, reads_of_ops hop (.inr ?_)⟩
        cases op <;> simp_all
    obtain ⟨r, hr, hw⟩ := this
    exact (h.notRead r hr _ hw).2 l hl hle
  noMatch pre chars post to o ho := by
    obtain ⟨r, hr, ho⟩ := mem_tableOps ho
    obtain ⟨_, _, _, _, _, e⟩ := op_from_line ho
    exact h.noMatch r hr _ _ _ _ _ e
  noContext test action o ho := by
    obtain ⟨r, hr, ho⟩ := mem_tableOps ho
    obtain ⟨_, _, _, e⟩ := op_from_line ho
    exact h.noContext r hr _ _ _ e
  noDigit ch o ho := by
    obtain ⟨r, hr, ho⟩ := mem_tableOps ho
    exact (h.notRead r hr _ (op_from_line ho)).1 (by simp)

/-- The replacement in an `undefined` line. -/
def undefinedOf (r : Anchored) : Option Text :=
  match r.rule with
  | .undefined cells => some cells.toText
  | _ => none

theorem lastUndefined_lines {ctx : TableCtx} {d : Direction} (rules : List Anchored) :
    lastUndefined (tableOps ctx d rules) = (rules.filterMap undefinedOf).getLast? :=
  congrArg List.getLast? (undefined_ops (ctx := ctx) (d := d) (rules := rules))

theorem getLast_filterMap {α β : Type} {f : α → Option β} {y : β} : ∀ (l : List α), (l.filterMap f).getLast? = some y →
    ∃ pre a post, l = pre ++ a :: post ∧ f a = some y ∧ ∀ q ∈ post, f q = none := by
  intro l
  induction l with
  | nil => intro h; cases h
  | cons a l ih =>
    intro h
    cases hl : (l.filterMap f).getLast? with
    | some z =>
      rw [List.filterMap_cons] at h
      have : (l.filterMap f) ≠ [] := fun e => by rw [e] at hl; cases hl
      have hz : (l.filterMap f).getLast? = some y := by
        cases ha : f a with
        | none => rw [ha] at h; exact h
        | some b =>
          rw [ha] at h
          obtain ⟨x, xs, e⟩ := List.exists_cons_of_ne_nil this
          rw [e] at h ⊢
          simpa [List.getLast?_cons_cons] using h
      obtain ⟨pre, b, post, e, g⟩ := ih hz
      exact ⟨a :: pre, b, post, by rw [e]; rfl, g⟩
    | none =>
      have he : l.filterMap f = [] := List.getLast?_eq_none_iff.1 hl
      rw [List.filterMap_cons, he] at h
      cases ha : f a with
      | none => rw [ha] at h; cases h
      | some b =>
        rw [ha] at h
        simp only [List.getLast?_singleton, Option.some.injEq] at h
        subst h
        exact ⟨[], a, l, rfl, ha, fun q hq => List.filterMap_eq_nil_iff.1 he q hq⟩

theorem fallbackCell_spec {x y : Char} (h : fallbackCell x = some y) : ∃ cell, (x, cell) ∈ builtinCells ∧ y = cell.toUnicode := by
  have key : ∀ p ∈ builtinCells, fallbackCell p.1 = some p.2.toUnicode := by decide +kernel
  have : ∃ cell, (x, cell) ∈ builtinCells := by
    unfold fallbackCell at h
    split at h
    all_goals first
      | (cases h; done)
      | (simp only [builtinCells, List.mem_cons, Prod.mk.injEq, List.not_mem_nil, or_false, exists_or]; simp; done)
  obtain ⟨cell, hc⟩ := this
  have := key _ hc
  simp only at this
  rw [h] at this
  injection this with this
  exact ⟨cell, hc, this⟩

theorem escaped_each (defs : CharDefs) : ∀ (w : Text), (∀ x ∈ w, fallbackCell x ≠ none) →
    ∃ cellss, Each (EscapedAs defs) w cellss ∧ cellss.flatten = w.flatMap fun x => (assoc x defs).getD (fallbackCell x).toList
  | [], _ => ⟨[], .nil, rfl⟩
  | x :: w, h => by
    obtain ⟨cellss, h1, h2⟩ := escaped_each defs w fun y hy => h y (List.mem_cons_of_mem _ hy)
    refine ⟨(assoc x defs).getD (fallbackCell x).toList :: cellss, .cons ?_ h1, by rw [List.flatten_cons, h2]; rfl⟩
    have hg : defs.get x = assoc x defs := rfl
    unfold EscapedAs
    rw [hg]
    cases ha : assoc x defs with
    | some cells => exact .inl rfl
    | none =>
      cases hf : fallbackCell x with
      | none => exact absurd hf (h x (by simp))
      | some y =>
        obtain ⟨cell, hm, rfl⟩ := fallbackCell_spec hf
        exact .inr ⟨rfl, cell, hm, rfl⟩

theorem unknown_written {ctx : TableCtx} {d : Direction} {rules : List Anchored} {c : Char} :
    WrittenUnknown ctx.defs rules c (unknownDots (ctx.prim d) (tableOps ctx d rules) c) := by
  unfold unknownDots
  rw [lastUndefined_lines]
  cases hl : (rules.filterMap undefinedOf).getLast? with
  | some dots =>
    obtain ⟨pre, r, post, e, hr, hq⟩ := getLast_filterMap rules hl
    have : ∃ cells, r.rule = .undefined cells ∧ dots = cells.toText := by
      unfold undefinedOf at hr
      split at hr
      · next cells hc => injection hr with hr; exact ⟨cells, hc, hr.symm⟩
      · cases hr
    obtain ⟨cells, hc, rfl⟩ := this
    refine .line e hc fun q hqp cells' hc' => ?_
    have := hq q hqp
    unfold undefinedOf at this
    rw [hc'] at this
    cases this
  | none =>
    obtain ⟨cellss, h1, h2⟩ := escaped_each ctx.defs (escapeChar c) (escape_fallback c)
    simp only
    show WrittenUnknown ctx.defs rules c ((escapeChar c).flatMap fun x => (assoc x ctx.defs).getD (fallbackCell x).toList)
    rw [← h2]
    refine .escape (fun r hr cells hc => ?_) h1
    have := List.filterMap_eq_nil_iff.1 (List.getLast?_eq_none_iff.1 hl) r hr
    unfold undefinedOf at this
    rw [hc] at this
    cases this

/-- **C39 of a translator.** A character that no line mentions is written, at each of its occurrences in the text of the main
stage, as the last `undefined` line says, or else as its hexadecimal escape: there are exactly as many items saying so as
there are occurrences. -/
theorem C39_translator {sys : Sys} {rules : List Anchored} {d : Direction} {steps : List Transform}
    (h : Pipeline.Compiles sys rules d steps) {cs : Case} {spans : List Span} {input : Text} {tss : List (List Resolved)}
    (ht : Pipeline.Traces cs spans input steps tss) (c : Char)
    (hu : NotMentioned cs.lower (TableCtx.compile sys.alpha (allowedRules rules d)).defs d (allowedRules rules d) c) :
    ∃ i p text ts cells, steps[i]? = some (.primary p) ∧ StageText input tss i text ∧ tss[i]? = some ts ∧
      WrittenUnknown (TableCtx.compile sys.alpha (allowedRules rules d)).defs (allowedRules rules d) c cells ∧
      ts.count (Resolved.new [c] cells 1 .main none) = text.count c := by
  obtain ⟨-, hs⟩ := traces_stage ht
  obtain ⟨correct, p, pass2, pass3, pass4, he, hp, -⟩ := C11_stages sys rules d steps h
  have hm : Transform.primary p ∈ steps := by
    rw [he]
    cases d <;> simp [inOrder]
  obtain ⟨i, hlt, hi⟩ := List.mem_iff_getElem.1 hm
  have hsi : steps[i]? = some (.primary p) := by rw [List.getElem?_eq_getElem hlt, hi]
  obtain ⟨text, ts, g1, g2, enriched, cons, ind, -, -, hind, g4⟩ := hs i _ hsi
  have m : MainStage sys (TableCtx.compile sys.alpha (allowedRules rules d)) d (allowedRules rules d) p := hp
  exact ⟨i, p, text, ts, _, hsi, g1, g2, unknown_written,
    C39_undefined_never_dropped _ d _ p.table m.built cs cons _ (m.ind_empty hind) text ts g4 c (unknown_of_lines hu)⟩

/-! ## A table that does not mention a character -/

/-- The lines `letter a 1`, `always aa 12` and `undefined 26`. -/
def unknownRules : List Anchored :=
  [⟨.charDef .letter 'a' [[.d1]] ⟨false, false, false⟩, 0⟩, ⟨.text .always "aa".toList (.explicit [[.d1, .d2]]) ⟨false, false, false⟩ [], 1⟩,
   ⟨.undefined [[.d2, .d6]], 2⟩]

theorem unknownRules_parsed : (parseTable "letter a 1\nalways aa 12\nundefined 26".toList none).toOption.map (·.map (·.1)) = some (unknownRules.map (·.rule)) := by
  decide +kernel

/-- The hypothesis of `C39_translator` is met: these lines do not mention `é`. -/
example : NotMentioned asciiCase.lower (TableCtx.compile demoSys.alpha (allowedRules unknownRules .forward)).defs .forward
    (allowedRules unknownRules .forward) 'é' := by
  have e : allowedRules unknownRules .forward = unknownRules := by rfl
  rw [e]
  refine ⟨?_, ?_, ?_, ?_⟩ <;> intro r hr <;>
    simp only [unknownRules, List.mem_cons, List.not_mem_nil, or_false] at hr
  · refine ⟨fun dots hd => ?_, fun name b hb => ?_⟩
    · rcases hr with rfl | rfl | rfl <;> simp [Rule.Defines] at hd
    · rcases hr with rfl | rfl | rfl <;> simp at hb
  · intro w hw
    have : w = "a".toList ∨ w = "aa".toList := by
      rcases hr with rfl | rfl | rfl <;> simp [Rule.reads, Rule.characters] at hw <;> simp [hw]
    have hl : ∀ l, asciiCase.lower 'é' = [l] → l = 'é' := by
      intro l hl
      have : asciiCase.lower 'é' = ['é'] := by decide +kernel
      rw [this] at hl
      injection hl with hl
      exact hl.symm
    rcases this with rfl | rfl
    · exact ⟨by decide +kernel, fun l h => by cases hl l h; decide +kernel⟩
    · exact ⟨by decide +kernel, fun l h => by cases hl l h; decide +kernel⟩
  · intro pre chars post dots cons h
    rcases hr with rfl | rfl | rfl <;> simp at h
  · intro test action cons h
    rcases hr with rfl | rfl | rfl <;> simp at h

/-- The text is translated with this table; without the `undefined` line the character is escaped as `\xe9`. -/
example : SourceTranslates demoSys asciiCase "letter a 1\nalways aa 12\nundefined 26".toList .forward [] "aaéaé".toList "⠃⠢⠁⠢".toList ∧
    SourceTranslates demoSys asciiCase "letter a 1\nalways aa 12".toList .forward [] "aaéa".toList "⠃⠳⠭⠑⠒⠁".toList :=
  ⟨runSource_sound (fuel := 40) (by decide +kernel), runSource_sound (fuel := 40) (by decide +kernel)⟩

end Louis
