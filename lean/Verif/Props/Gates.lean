import Verif.Props.Config
import Verif.Props.Conditions
import Verif.Props.Indicators

/-!
# C62: which rules a translation may use where

Computer braille, numbers, punctuation and hyphenation decide which rules may be used at a position.  Here this is said
about the rules of a table and the text translated: which positions are in computer braille, belong to a number, and so on,
is read off the lines of the table.
-/

namespace Louis

/-! ## Specification -/

/-- The position is in computer braille: in a computer-braille span of the caller, or in a word with a `compbrl` text. -/
def InComputerBraille (ctx : TableCtx) (rules : List Anchored) (spans : List Span) (text : Text) (pos : Nat) : Prop :=
  pos < text.length ∧ ((∃ s ∈ spans, s.cls = computerBraille ∧ s.start ≤ pos ∧ pos < s.stop) ∨
    ∃ r ∈ rules, ∃ trigger cons, r.rule = .compbrl trigger cons ∧ ∃ q start stop, OccursAt trigger text q ∧
      WordAt ctx.classes.isWhitespace text q start stop ∧ start ≤ pos ∧ pos < stop)

/-- The position belongs to a number, according to the lines of the table. -/
def InNumberOf (ctx : TableCtx) (rules : List Anchored) (text : Text) (pos : Nat) : Prop :=
  pos < text.length ∧ InNumber (numChars ctx.classes rules) text pos

/-- The position is not directly after a letter, and a letter or digit follows before any space. -/
def BeforeWord (cl : CharClasses) (text : Text) (pos : Nat) : Prop :=
  (∀ q c, q + 1 = pos → text[q]? = some c → cl.has .letter c = false) ∧
  ∃ k c, pos < k ∧ text[k]? = some c ∧ (cl.has .letter c = true ∨ cl.has .digit c = true) ∧
    ∀ j c', pos < j → j < k → text[j]? = some c' → cl.has .space c' = false

/-- The position is not directly before a letter, and a letter or digit precedes after any space. -/
def AfterWord (cl : CharClasses) (text : Text) (pos : Nat) : Prop :=
  (∀ c, text[pos + 1]? = some c → cl.has .letter c = false) ∧
  ∃ k c, k < pos ∧ text[k]? = some c ∧ (cl.has .letter c = true ∨ cl.has .digit c = true) ∧
    ∀ j c', k < j → j < pos → text[j]? = some c' → cl.has .space c' = false

/-! ## Proofs -/

theorem mem_members (cl : CharClasses) (k : CharClass) (c : Char) : c ∈ cl.members k ↔ cl.has k c = true := by
  have e : cl.members k = (cl.filter (·.1 == k)).map (·.2) := by
    unfold CharClasses.members CharClasses.get
    split
    · rename_i h; rw [h]; rfl
    · rfl
  rw [e]
  unfold CharClasses.has
  simp only [List.mem_map, List.mem_filter, beq_iff_eq, List.contains_iff_mem]
  constructor
  · rintro ⟨⟨a, b⟩, ⟨h1, rfl⟩, rfl⟩; exact h1
  · intro h; exact ⟨(k, c), ⟨h, rfl⟩, rfl⟩

theorem covers_enriched {sys : Sys} {ctx : TableCtx} {d : Direction} {rules : List Anchored} {p : Primary}
    (h : MainStage sys ctx d rules p) {text : Text} {spans e : List Span}
    (he : if p.triggers.isEmpty then e = spans else Enriches p.triggers p.classes.isWhitespace text spans e) (pos : Nat) :
    SpanCovers computerBraille e text.length pos ↔ InComputerBraille ctx rules spans text pos := by
  rw [h.triggers, h.classes] at he
  have key : ∀ s, s ∈ e ↔ s ∈ spans ∨ (s.cls = computerBraille ∧ ∃ t ∈ triggersOf rules, ∃ q, OccursAt t text q ∧
        WordAt ctx.classes.isWhitespace text q s.start s.stop) := by
    split at he
    · rename_i hemp
      have : triggersOf rules = [] := by simpa using hemp
      rw [he, this]
      simp
    · have hns : ∀ t ∈ triggersOf rules, ∀ p c, OccursAt t text p → text[p]? = some c → ctx.classes.isWhitespace c = false := by
        intro t ht p c h1 h2
        cases hs : ctx.classes.isWhitespace c with
        | false => rfl
        | true => exact absurd ⟨e, he⟩ (C30_diverges_wrong _ _ text spans t ht p c h1 h2 hs)
      obtain ⟨extra, h1, -, -, h2⟩ := C30_words_partial (triggersOf rules) ctx.classes.isWhitespace text spans hns
      rw [(h1 e).mp he]
      exact h2
  unfold SpanCovers InComputerBraille
  refine and_congr_right fun _ => ?_
  constructor
  · rintro ⟨s, hs, h1, h2, h3⟩
    rcases (key s).mp hs with hs | ⟨-, t, ht, q, h4, h5⟩
    · exact .inl ⟨s, hs, h1, h2, h3⟩
    · obtain ⟨r, hr, e⟩ := List.mem_filterMap.mp ht
      split at e
      · rename_i tr cons hrule
        injection e with e
        exact .inr ⟨r, hr, tr, cons, hrule, q, s.start, s.stop, e ▸ h4, h5, h2, h3⟩
      · cases e
  · rintro (⟨s, hs, h1, h2, h3⟩ | ⟨r, hr, t, cons, hrule, q, a, b, h4, h5, h2, h3⟩)
    · exact ⟨s, (key s).mpr (.inl hs), h1, h2, h3⟩
    · refine ⟨⟨computerBraille, a, b⟩, (key _).mpr (.inr ⟨rfl, t, ?_, q, h4, h5⟩), rfl, h2, h3⟩
      exact List.mem_filterMap.mpr ⟨r, hr, by rw [hrule]⟩

theorem flagAt_range (f : Nat → Bool) (n pos : Nat) : flagAt ((List.range n).map f) pos = true ↔ pos < n ∧ f pos = true := by
  unfold flagAt
  by_cases h : pos < n
  · simp [h]
  · rw [List.getElem?_eq_none (by simpa using h)]
    simp [h]

/-- The flags of a text. -/
theorem precompute_flags {c : Constrainers} {text : Text} {spans : List Span} {cons : Constraints}
    (e : c.precompute text spans = .ok cons) (pos : Nat) :
    (cons.useComp6 pos = true ↔ SpanCovers computerBraille spans text.length pos) ∧
    (cons.dontContract pos = true ↔ ∃ n, c.numeric = some n ∧ pos < text.length ∧ InNumber n text pos) ∧
    (cons.prepuncOk pos = true ↔ ∃ p, c.punctuation = some p ∧ pos < text.length ∧ p.prepunc text pos = true) ∧
    (cons.postpuncOk pos = true ↔ ∃ p, c.punctuation = some p ∧ pos < text.length ∧ p.postpunc text pos = true) ∧
    ((∀ x, c.hyphenation = some x → x.1.Wf) →
      (cons.hyphenationBreak pos = true ↔ ∃ x, c.hyphenation = some x ∧ BreakAfter x.1 x.2 text pos)) := by
  obtain ⟨comp6, h1, -, h2⟩ := C22_computer_braille_spans text spans
  have no : flagAt (List.replicate text.length false) pos = false := by
    unfold flagAt
    rw [List.getElem?_replicate]
    split <;> rfl
  unfold Constrainers.precompute at e
  simp only [h1] at e
  split at e
  · cases e
  · split at e
    · cases e
    · split at e
      · cases e
      · rename_i hyph hh
        injection e with e
        subst e
        simp only
        refine ⟨h2 pos, ?_, ?_, ?_, ?_⟩
        · cases c.numeric with
          | none => simp [no]
          | some n => simp [C21_numeric_mode]
        · cases c.punctuation with
          | none => simp [no]
          | some x =>
            simp only [Option.some.injEq, exists_eq_left']
            exact flagAt_range _ _ _
        · cases c.punctuation with
          | none => simp [no]
          | some x =>
            simp only [Option.some.injEq, exists_eq_left']
            exact flagAt_range _ _ _
        · intro wf
          cases hc : c.hyphenation with
          | none => rw [hc] at hh; cases hh; simp [no]
          | some x =>
            rw [hc] at hh
            obtain ⟨flags, g1, -, g2⟩ := C24_text_breaks x.1 (wf x hc) x.2 text
            simp only [g1] at hh
            cases hh
            simp [g2]

/-- The operations a rule gives, by the opcode of the rule. -/
def OpShape (r : Rule) : PrimOp → Prop
  | .char c _ _ _ => (∃ k cells cons, r = .charDef k c cells cons) ∨ (∃ cells, r = .decpoint c cells) ∨ ∃ name b, r = .base name c b
  | .rule nocross _ => nocross = r.isNocross ∧ ∀ chars b, r ≠ .comp6 chars b
  | .comp6 _ => ∃ chars b, r = .comp6 chars b
  | .matchRule .. => ∃ pre chars post b cons, r = .matchRule pre chars post b cons
  | .context .. => ∃ test action cons, r = .pass .context test action cons
  | .undefined _ => ∃ dots, r = .undefined dots
  | .digitOverride .. => ∃ k c cells cons, r = .charDef k c cells cons

theorem ops_shape {ctx : TableCtx} {d : Direction} {L : List Char} {D : List Text} {r : Anchored} {ops : List PrimOp}
    (h : r.ops ctx d L D = .ok ops) : ∀ op ∈ ops, OpShape r.rule op := by
  intro op hop
  have dig : ∀ k c dots cons, r.rule = .charDef k c dots cons → ∀ op ∈ r.digitOps d D c dots, OpShape r.rule op := by
    intro k c dots cons hr op h
    unfold Anchored.digitOps at h
    split at h
    · split at h
      · rw [List.mem_singleton.mp h]; exact ⟨_, _, _, _, hr⟩
      · cases h
    · cases h
  have sig : ∀ dots, r.rule.backSign? = some dots → ∀ op ∈ r.signOps d D dots, OpShape r.rule op := by
    intro dots hb op h
    unfold Anchored.signOps at h
    split at h
    · rw [List.mem_singleton.mp h]
      obtain ⟨rule, id⟩ := r
      cases rule <;> first | cases hb; done | exact ⟨rfl, nofun⟩
    · cases h
  obtain ⟨rule, id⟩ := r
  cases rule
  case charDef k c dots cons =>
    have hc : OpShape (.charDef k c dots cons) (.char c dots.toText (Rule.prec (.charDef k c dots cons))
        (Anchored.origin ⟨.charDef k c dots cons, id⟩)) := .inl ⟨_, _, _, rfl⟩
    cases k
    case hyphen => cases h; cases hop
    case digit =>
      cases h
      rcases List.mem_append.mp hop with hop | hop
      · split at hop
        · cases hop
        · rw [List.mem_singleton.mp hop]; exact hc
      · exact dig _ _ _ _ rfl op hop
    case litdigit =>
      cases h
      rcases List.mem_cons.mp hop with rfl | hop
      · exact hc
      · exact dig _ _ _ _ rfl op hop
    all_goals
      cases h
      rw [List.mem_singleton.mp hop]
      exact hc
  case pass k test action cons =>
    cases k
    case context =>
      cases h
      rw [List.mem_singleton.mp hop]
      exact ⟨_, _, _, rfl⟩
    all_goals cases h; cases hop
  case prepunc chars dots cons =>
    cases h
    split at hop
    · rw [List.mem_singleton.mp hop]; exact ⟨rfl, nofun⟩
    · cases hop
  case postpunc chars dots cons =>
    cases h
    split at hop
    · rw [List.mem_singleton.mp hop]; exact ⟨rfl, nofun⟩
    · cases hop
  case base name derived b =>
    unfold Anchored.ops at h
    simp only at h
    split at h
    · cases h
      rw [List.mem_singleton.mp hop]; exact .inr (.inr ⟨_, _, rfl⟩)
    · cases h; cases hop
  case text k chars b cons withs =>
    unfold Anchored.ops at h
    simp only at h
    split at h
    · cases h
    · cases h
      obtain ⟨e, -, rfl⟩ := List.mem_map.mp hop
      exact ⟨rfl, nofun⟩
  case comp6 chars b =>
    unfold Anchored.ops at h
    simp only at h
    split at h
    · cases h
    · cases h
      rw [List.mem_singleton.mp hop]; exact ⟨_, _, rfl⟩
  case matchRule pre chars post b cons =>
    unfold Anchored.ops at h
    simp only at h
    split at h
    · cases h
    · cases h
      rw [List.mem_singleton.mp hop]; exact ⟨_, _, _, _, _, rfl⟩
  case undefined dots =>
    cases h
    rw [List.mem_singleton.mp hop]; exact ⟨_, rfl⟩
  all_goals first
    | (cases h; cases hop; done)
    | (cases h; exact sig _ rfl op hop)
    | (cases h; rw [List.mem_singleton.mp hop]; exact ⟨rfl, nofun⟩)
    | (unfold Anchored.ops at h
       simp only at h
       split at h
       · cases h
       · cases h
         rw [List.mem_singleton.mp hop]; exact ⟨rfl, nofun⟩)

theorem tableOps_shape {ctx : TableCtx} {d : Direction} {rules : List Anchored} : ∀ op ∈ tableOps ctx d rules,
    ∃ r ∈ rules, OpShape r.rule op ∧ ∀ o, op.origin? = some o → o = r.origin := by
  intro op hop
  rcases List.mem_append.mp hop with h | h
  · obtain ⟨r, hr, h⟩ := List.mem_flatMap.mp h
    refine ⟨r, hr, ?_⟩
    unfold Anchored.firstOps at h
    split at h
    · next e => rw [List.mem_singleton.mp h]; exact ⟨.inr (.inl ⟨_, e⟩), fun o ho => (Option.some.inj ho).symm⟩
    · next e => rw [List.mem_singleton.mp h]; exact ⟨.inl ⟨_, _, _, e⟩, fun o ho => (Option.some.inj ho).symm⟩
    · cases h
  · obtain ⟨r, hr, h⟩ := List.mem_flatMap.mp h
    refine ⟨r, hr, ?_⟩
    unfold Anchored.opsD at h
    cases e : r.ops ctx d (litdigitChars d rules) (letterDotsOf d rules) with
    | error _ => rw [e] at h; cases h
    | ok ops => rw [e] at h; exact ⟨ops_shape e op h, ops_origin e op h⟩


theorem op_of_rule {ctx : TableCtx} {d : Direction} {rules : List Anchored} (hids : DistinctIds rules) {r : Anchored} (hr : r ∈ rules)
    {op : PrimOp} (hop : op ∈ tableOps ctx d rules) (ho : op.origin? = some r.origin) : OpShape r.rule op := by
  obtain ⟨r', hr', h1, h2⟩ := tableOps_shape op hop
  have := hids.origin hr' hr (by rw [h2 _ ho])
  rw [this]
  exact h1

theorem op_comp6 {r : Rule} {op : PrimOp} {chars b} (hr : r = .comp6 chars b) (h : OpShape r op) : ∃ e, op = .comp6 e := by
  subst hr
  cases op
  case comp6 e => exact ⟨e, rfl⟩
  case rule => exact absurd rfl (h.2 chars b)
  case char => rcases h with ⟨_, _, _, h⟩ | ⟨_, h⟩ | ⟨_, _, h⟩ <;> cases h
  case matchRule => obtain ⟨_, _, _, _, _, h⟩ := h; cases h
  case context => obtain ⟨_, _, _, h⟩ := h; cases h
  case undefined => obtain ⟨_, h⟩ := h; cases h
  case digitOverride => obtain ⟨_, _, _, _, h⟩ := h; cases h

/-- The rules that may be marked `nocross`. -/
def Rule.CanNocross : Rule → Prop
  | .text _ _ _ _ _ | .lowword _ _ _ | .prepunc _ _ _ | .postpunc _ _ _ | .begnum _ _ _ | .midnum _ _ _ | .endnum _ _ _ => True
  | _ => False

theorem op_dictionary {r : Rule} {op : PrimOp} (hr : r.CanNocross) (h : OpShape r op) : ∃ e, op = .rule r.isNocross e := by
  cases op
  case comp6 e => obtain ⟨_, _, h⟩ := h; rw [h] at hr; cases hr
  case rule n e => exact ⟨e, by rw [h.1]⟩
  case char => rcases h with ⟨_, _, _, h⟩ | ⟨_, h⟩ | ⟨_, _, h⟩ <;> (rw [h] at hr; cases hr)
  case matchRule => obtain ⟨_, _, _, _, _, h⟩ := h; rw [h] at hr; cases hr
  case context => obtain ⟨_, _, _, h⟩ := h; rw [h] at hr; cases hr
  case undefined => obtain ⟨_, h⟩ := h; rw [h] at hr; cases hr
  case digitOverride => obtain ⟨_, _, _, _, h⟩ := h; rw [h] at hr; cases hr

theorem canNocross_sign {r : Rule} (h : r.CanNocross) : r.sign? = none := by
  cases r <;> first | rfl | cases h

theorem isNocross_can {r : Rule} (h : r.isNocross = true) : r.CanNocross := by
  cases r <;> first | trivial | cases h

/-! ## The gates -/

section

variable {sys : Sys} {ctx : TableCtx} {d : Direction} {rules : List Anchored} {p : Primary} {cs : Case} {text : Text}
  {spans : List Span} {ts done rest : List Resolved} {tr : Resolved}

/-- The items of a trace of the main stage, with the flags at their positions. -/
theorem gate_item (h : MainStage sys ctx d rules p) (ht : p.Traces cs text spans ts) (e : ts = done ++ tr :: rest) :
    (∃ r ∈ rules, ∃ dots, r.rule.sign? = some dots ∧ tr = indication dots.toText r.origin) ∨
    ∃ s cons, Emitted (ctx.prim d) d (tableOps ctx d rules) p.table cs cons s tr ∧ s.pos = coveredBy done ∧
      s.rest = text.drop s.pos ∧ tr.length = tr.input.length ∧
      (∀ pos, cons.useComp6 pos = true ↔ InComputerBraille ctx rules spans text pos) ∧
      ∀ pos, (cons.dontContract pos = true ↔ InNumberOf ctx rules text pos) ∧
        (cons.prepuncOk pos = true ↔ ∃ p', p.constrainers.punctuation = some p' ∧ pos < text.length ∧ p'.prepunc text pos = true) ∧
        (cons.postpuncOk pos = true ↔ ∃ p', p.constrainers.punctuation = some p' ∧ pos < text.length ∧ p'.postpunc text pos = true) ∧
        (cons.hyphenationBreak pos = true ↔ ∃ x, p.constrainers.hyphenation = some x ∧ BreakAfter x.1 x.2 text pos) := by
  obtain ⟨en, cons, ind, h1, h2, h3, h4⟩ := ht
  have hpos : (done.map (·.input.length)).sum = coveredBy done := by
    unfold coveredBy
    rw [List.length_flatMap]
  rcases trace_item h.built (h.ind_empty h3) h4 e with ⟨pos, hp⟩ | ⟨s, -, hs, hs1, hs2, hs3⟩
  · obtain ⟨r, hr, dots, hd, rfl⟩ := h.signs tr (precompute_signs _ _ _ _ _ h3 pos tr hp)
    exact .inl ⟨r, hr, dots, hd, rfl⟩
  · refine .inr ⟨s, cons, hs, hs1.trans hpos, hs2, hs3, fun pos => ?_, fun pos => ?_⟩
    · exact (precompute_flags h2 pos).1.trans (covers_enriched h h1 pos)
    · obtain ⟨-, f2, f3, f4, f5⟩ := precompute_flags h2 pos
      refine ⟨f2.trans ?_, f3, f4, f5 h.constrainers.2.2⟩
      have hn : p.constrainers.numeric = if ctx.classes.members .litdigit = [] then none else some (numChars ctx.classes rules) := by
        cases d with
        | forward => rw [C61_constraints_forward h]
        | backward => rw [C61_constraints_backward h]
      rw [hn]
      unfold InNumberOf
      constructor
      · rintro ⟨n, hn, h1, h2⟩
        split at hn
        · cases hn
        · injection hn with hn
          exact ⟨h1, hn ▸ h2⟩
      · rintro ⟨h1, h2⟩
        refine ⟨_, ?_, h1, h2⟩
        rw [if_neg]
        intro hemp
        obtain ⟨i, -, ⟨c, -, hc⟩, -⟩ := h2
        have : (numChars ctx.classes rules).digits = ctx.classes.members .litdigit := rfl
        rw [this, hemp] at hc
        cases hc

/-- No rule of the table is marked `nocross`. -/
abbrev NoNocross (rules : List Anchored) : Prop := ∀ r ∈ rules, r.rule.isNocross = false

theorem noNocross_ops (hno : NoNocross rules) : ∀ r, PrimOp.rule true r ∉ tableOps ctx d rules := by
  intro e hop
  obtain ⟨r, hr, -, hn, -⟩ := tableOps_of (cl := ctx.neighbours d) _ hop
  rw [hno r hr] at hn
  cases hn

/-- **C62**, computer braille: in a table without `nocross` rules, whatever is written for the text in computer braille is
what a `comp6` line says, or what the table says for a single character.  (Missing: `nocross` rules, for which it is false,
`C51_nocross_in_computer_braille_wrong`.) -/
theorem C62_computer_braille_partial (h : MainStage sys ctx d rules p) (hno : NoNocross rules) (ht : p.Traces cs text spans ts)
    (e : ts = done ++ tr :: rest) (hin : InComputerBraille ctx rules spans text (coveredBy done)) :
    (∃ r ∈ rules, ∃ dots, r.rule.sign? = some dots ∧ tr = indication dots.toText r.origin) ∨
    (∃ r ∈ rules, ∃ chars b, r.rule = .comp6 chars b ∧ tr.origin = some r.origin) ∨
    ∃ c, tr.input = [c] ∧ (tr.origin = none ∨ ∃ r ∈ rules, tr.origin = some r.origin ∧
      ((∃ k cells cons, r.rule = .charDef k c cells cons) ∨ (∃ cells, r.rule = .decpoint c cells) ∨
        ∃ name b, r.rule = .base name c b)) := by
  rcases gate_item h ht e with hs | ⟨s, cons, hem, hpos, -, hlen, h6, -⟩
  · exact .inl hs
  · right
    have h6' := (h6 _).mpr hin
    rw [← hpos] at h6'
    cases hem with
    | nocross r hop => exact absurd hop (noNocross_ops hno r)
    | comp6 r _ hop _ ho _ =>
      obtain ⟨r', hr', h1, ⟨chars, b, h2⟩, -⟩ := tableOps_of (cl := ctx.neighbours d) _ hop
      exact .inl ⟨r', hr', chars, b, h2, by rw [ho, h1]⟩
    | rule h6'' => rw [h6'] at h6''; cases h6''
    | digit _ _ _ h6'' => rw [h6'] at h6''; cases h6''
    | plain c _ hpl hi _ =>
      refine .inr ⟨c, hi, ?_⟩
      cases ho : tr.origin with
      | none => exact .inl rfl
      | some o =>
        right
        obtain ⟨dots, prec, hop⟩ := plain_origin h.built.ok hpl ho
        obtain ⟨r, hr, h1, h2⟩ := tableOps_shape _ hop
        exact ⟨r, hr, by rw [h2 o rfl], h1⟩

/-- **C62**, outside of computer braille no `comp6` line is used. -/
theorem C62_comp6_only_there (h : MainStage sys ctx d rules p) (hids : DistinctIds rules) (ht : p.Traces cs text spans ts)
    (e : ts = done ++ tr :: rest) (r : Anchored) (hr : r ∈ rules) (chars : Text) (b : Braille) (hrule : r.rule = .comp6 chars b)
    (ho : tr.origin = some r.origin) : InComputerBraille ctx rules spans text (coveredBy done) := by
  rcases gate_item h ht e with ⟨r', hr', dots, hs, rfl⟩ | ⟨s, cons, hem, hpos, -, hlen, h6, -⟩
  · have := hids.origin hr hr' ho
    rw [this, hrule] at hs
    cases hs
  · rw [← hpos]
    cases hem with
    | nocross x hop _ hox =>
      obtain ⟨_, hc⟩ := op_comp6 hrule (op_of_rule hids hr hop (by rw [← ho, hox]; rfl))
      cases hc
    | comp6 x h6' => exact (h6 _).mp h6'
    | rule _ hf =>
      obtain ⟨op, hop, hord, -, hoo⟩ := hf.op
      obtain ⟨_, rfl⟩ := op_comp6 hrule (op_of_rule hids hr hop (by rw [hoo, ho]))
      cases hord
    | digit c ch o _ _ _ _ hop hox =>
      obtain ⟨_, hc⟩ := op_comp6 hrule (op_of_rule hids hr hop (by rw [← ho, hox]; rfl))
      cases hc
    | plain c _ hpl =>
      obtain ⟨dots, prec, hop⟩ := plain_origin h.built.ok hpl ho
      obtain ⟨_, hc⟩ := op_comp6 hrule (op_of_rule hids hr hop rfl)
      cases hc

/-- **C62**, numbers: in a table without `nocross` rules, nothing longer than one character is written at once inside a
number, unless it is in computer braille.  (Missing: as above.) -/
theorem C62_numbers_partial (h : MainStage sys ctx d rules p) (hno : NoNocross rules) (ht : p.Traces cs text spans ts)
    (e : ts = done ++ tr :: rest) (hout : ¬ InComputerBraille ctx rules spans text (coveredBy done))
    (hin : InNumberOf ctx rules text (coveredBy done)) : tr.input.length ≤ 1 := by
  rcases gate_item h ht e with ⟨r, -, dots, -, rfl⟩ | ⟨s, cons, hem, hpos, -, hlen, h6, hf⟩
  · exact Nat.zero_le _
  · have h6' : cons.useComp6 s.pos ≠ true := fun c => hout (hpos ▸ (h6 _).mp c)
    have hc := ((hf _).1).mpr hin
    rw [← hpos] at hc
    rw [← hlen]
    cases hem with
    | nocross r hop => exact absurd hop (noNocross_ops hno r)
    | comp6 r h6'' => exact absurd h6'' h6'
    | rule _ _ _ hl => exact hl hc
    | digit _ _ _ _ _ _ _ _ _ hl => omega
    | plain _ _ _ _ hl => omega

/-- **C62**, hyphenation: whatever is written by a rule marked `nocross` stands for a piece of text without a hyphenation
point inside, according to the hyphenation table included last. -/
theorem C62_nocross (h : MainStage sys ctx .forward rules p) (hids : DistinctIds rules) (ht : p.Traces cs text spans ts)
    (e : ts = done ++ tr :: rest) (r : Anchored) (hr : r ∈ rules) (hn : r.rule.isNocross = true) (ho : tr.origin = some r.origin)
    (hy : Hyphenation) (hl : lastHyphenation sys rules = some hy) (pos : Nat) (h1 : coveredBy done ≤ pos)
    (h2 : pos + 1 < coveredBy (done ++ [tr])) : ¬ BreakAfter hy (ctx.classes.members .letter) text pos := by
  have hc : coveredBy (done ++ [tr]) = coveredBy done + tr.input.length := by
    unfold coveredBy; simp
  rw [hc] at h2
  rcases gate_item h ht e with ⟨r', hr', dots, hs, rfl⟩ | ⟨s, cons, hem, hpos, -, hlen, h6, hf⟩
  · have := hids.origin hr hr' ho
    rw [this, canNocross_sign (isNocross_can hn)] at hs
    cases hs
  · intro hb
    have hbr : cons.hyphenationBreak pos = true := by
      rw [(hf pos).2.2.2, C61_constraints_forward h, hl]
      exact ⟨_, rfl, hb⟩
    have hall : ∀ op ∈ tableOps ctx .forward rules, op.origin? = some r.origin → ∃ e, op = .rule true e := by
      intro op hop hoo
      obtain ⟨e, he⟩ := op_dictionary (isNocross_can hn) (op_of_rule hids hr hop hoo)
      exact ⟨e, by rw [he, hn]⟩
    cases hem with
    | nocross x hop _ _ _ hh =>
      have := hh pos (by omega) (by omega)
      rw [hbr] at this
      cases this
    | comp6 x _ hop _ hox =>
      obtain ⟨_, hc⟩ := hall _ hop (by rw [← ho, hox]; rfl)
      cases hc
    | rule _ hf =>
      obtain ⟨op, hop, hord, -, hoo⟩ := hf.op
      obtain ⟨_, rfl⟩ := hall _ hop (by rw [hoo, ho])
      cases hord
    | digit c ch o _ _ _ _ hop hox =>
      obtain ⟨_, hc⟩ := hall _ hop (by rw [← ho, hox]; rfl)
      cases hc
    | plain c _ hpl =>
      obtain ⟨dots, prec, hop⟩ := plain_origin h.built.ok hpl ho
      obtain ⟨_, hc⟩ := hall _ hop rfl
      cases hc

/-- An item written by a dictionary rule not marked `nocross` satisfies the condition on punctuation. -/
theorem punct_item (hids : DistinctIds rules) (hb : PrimOk (ctx.prim d) d (tableOps ctx d rules) p.table) {cons : Constraints} {s : PState}
    (hem : Emitted (ctx.prim d) d (tableOps ctx d rules) p.table cs cons s tr) {r : Anchored} (hr : r ∈ rules)
    (hcan : r.rule.CanNocross) (hn : r.rule.isNocross = false) (ho : tr.origin = some r.origin) : punctOk cons s.pos tr = true := by
  refine emitted_ordinary hb hem ho ?_
  intro op hop hoo
  obtain ⟨e, he⟩ := op_dictionary hcan (op_of_rule hids hr hop hoo)
  exact ⟨e, by rw [he, hn]⟩

/-- **C62**, prefix punctuation: whatever is written by a `prepunc` line (not marked `nocross`) stands before a word, not
directly after a letter.  (Missing: `nocross prepunc`, which is not gated, `C23_nocross_not_gated_wrong`.) -/
theorem C62_prepunc_partial (h : MainStage sys ctx .forward rules p) (hids : DistinctIds rules) (ht : p.Traces cs text spans ts)
    (e : ts = done ++ tr :: rest) (r : Anchored) (hr : r ∈ rules) (chars : Text) (dots : Cells) (rc : RuleCons)
    (hrule : r.rule = .prepunc chars dots rc) (hn : rc.nocross = false) (ho : tr.origin = some r.origin) :
    BeforeWord ctx.classes text (coveredBy done) := by
  rcases gate_item h ht e with ⟨r', hr', dots, hs, rfl⟩ | ⟨s, cons, hem, hpos, -, hlen, h6, hf⟩
  · have := hids.origin hr hr' ho
    rw [this, hrule] at hs
    cases hs
  · have hp := punct_item hids h.built.ok hem hr (by rw [hrule]; trivial) (by rw [hrule]; exact hn) ho
    unfold punctOk at hp
    rw [ho] at hp
    have hk : r.origin.kind = .prepunc := by unfold Anchored.origin; rw [hrule]
    rw [hpos] at hp
    have hok : cons.prepuncOk (coveredBy done) = true := by
      revert hp
      generalize r.origin = o at hk
      obtain ⟨kind, id⟩ := o
      cases hk
      exact fun x => x
    obtain ⟨p', hp', -, hpre⟩ := ((hf _).2.1).mp hok
    rw [C61_constraints_forward h] at hp'
    simp only at hp'
    split at hp'
    · injection hp' with hp'
      subst hp'
      obtain ⟨g1, k, c, g2, g3, g4, g5⟩ := (C23_before_a_word _ _ _).mp hpre
      simp only [mem_members, List.mem_append] at g1 g4 g5
      exact ⟨fun q c hq hc => by simpa using g1 q c hq hc, k, c, g2, g3, g4, fun j c' a b hc' => by simpa using g5 j c' a b hc'⟩
    · cases hp'

/-- **C62**, postfix punctuation, the mirror image. -/
theorem C62_postpunc_partial (h : MainStage sys ctx .forward rules p) (hids : DistinctIds rules) (ht : p.Traces cs text spans ts)
    (e : ts = done ++ tr :: rest) (r : Anchored) (hr : r ∈ rules) (chars : Text) (dots : Cells) (rc : RuleCons)
    (hrule : r.rule = .postpunc chars dots rc) (hn : rc.nocross = false) (ho : tr.origin = some r.origin) :
    AfterWord ctx.classes text (coveredBy done) := by
  rcases gate_item h ht e with ⟨r', hr', dots, hs, rfl⟩ | ⟨s, cons, hem, hpos, -, hlen, h6, hf⟩
  · have := hids.origin hr hr' ho
    rw [this, hrule] at hs
    cases hs
  · have hp := punct_item hids h.built.ok hem hr (by rw [hrule]; trivial) (by rw [hrule]; exact hn) ho
    unfold punctOk at hp
    rw [ho] at hp
    have hk : r.origin.kind = .postpunc := by unfold Anchored.origin; rw [hrule]
    rw [hpos] at hp
    have hok : cons.postpuncOk (coveredBy done) = true := by
      revert hp
      generalize r.origin = o at hk
      obtain ⟨kind, id⟩ := o
      cases hk
      exact fun x => x
    obtain ⟨p', hp', hlt, hpre⟩ := ((hf _).2.2.1).mp hok
    rw [C61_constraints_forward h] at hp'
    simp only at hp'
    split at hp'
    · injection hp' with hp'
      subst hp'
      obtain ⟨g1, k, c, g2, g3, g4, g5⟩ := (C23_after_a_word _ _ _ hlt).mp hpre
      simp only [mem_members, List.mem_append] at g1 g4 g5
      exact ⟨fun c hc => by simpa using g1 c hc, k, c, g2, g3, g4, fun j c' a b hc' => by simpa using g5 j c' a b hc'⟩
    · cases hp'

end

end Louis
