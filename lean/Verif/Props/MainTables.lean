import Verif.Props.MainRun
import Verif.Props.PassTables
import Verif.Props.TableSigns

/-!
# C73 for whole tables
-/

namespace Louis

/-- No `match` line of the table repeats by `*` or `+` something that may read no character. -/
def PlainMatches (rules : List Anchored) : Prop :=
  ∀ r ∈ rules, ∀ pre chars post b cons, r.rule = .matchRule pre chars post b cons → PlainLoopsAll 0 pre ∧ PlainLoopsAll 0 post

/-- The `match` lines of a table, with the cells they write. -/
def matchLineOf (ctx : TableCtx) (r : Anchored) : Option MatchLine :=
  match r.rule with
  | .matchRule pre chars post b _ => (okOf (ctx.defs.braille b chars)).map fun to => ⟨pre, chars, post, to, r.origin⟩
  | _ => none

/-- The `context` lines of a table. -/
def contextLineOf (r : Anchored) : Option PassRule :=
  match r.rule with
  | .pass .context test action _ => some ⟨test, action, r.origin⟩
  | _ => none

theorem filterMap_flatMap_ops {α β γ : Type} (f : β → Option γ) (g : α → List β) (k : α → Option γ) :
    ∀ (l : List α), (∀ a ∈ l, (g a).filterMap f = (k a).toList) → (l.flatMap g).filterMap f = l.filterMap k
  | [], _ => rfl
  | a :: l, h => by
    rw [List.flatMap_cons, List.filterMap_append, h a (by simp), filterMap_flatMap_ops f g k l fun x hx => h x (by simp [hx]),
      List.filterMap_cons]
    cases k a <;> rfl

theorem filterMap_none {α β : Type} (f : α → Option β) (l : List α) (h : ∀ a ∈ l, f a = none) : l.filterMap f = [] := by
  rw [List.filterMap_eq_nil_iff]
  exact h

/-- Operations that are neither patterns nor about undefined characters. -/
def PrimOp.isEntry : PrimOp → Bool
  | .char _ _ _ _ | .rule _ _ | .comp6 _ | .digitOverride _ _ _ => true
  | _ => false

theorem firstOps_entry (r : Anchored) : ∀ op ∈ r.firstOps, op.isEntry = true := by
  intro op h
  unfold Anchored.firstOps at h
  split at h
  · rw [List.mem_singleton.1 h]; rfl
  · rw [List.mem_singleton.1 h]; rfl
  · cases h

theorem entry_pattern {op : PrimOp} (h : op.isEntry = true) :
    (match op with | .matchRule pre chars post to origin => some (MatchLine.mk pre chars post to origin) | _ => none) = none ∧
    (match op with | .context test action origin => some (PassRule.mk test action origin) | _ => none) = none := by
  cases op <;> first | exact ⟨rfl, rfl⟩ | cases h

/-- The operations of a line that is neither `match`, `context` nor `undefined`. -/
theorem opsD_entry {ctx : TableCtx} {d : Direction} {L : List Char} {D : List Text} (r : Anchored)
    (h1 : ∀ pre chars post b cons, r.rule ≠ .matchRule pre chars post b cons)
    (h2 : ∀ test action cons, r.rule ≠ .pass .context test action cons) (h3 : ∀ dots, r.rule ≠ .undefined dots) :
    ∀ op ∈ r.opsD ctx d L D, op.isEntry = true := by
  have sig : ∀ dots : Cells, ∀ op ∈ r.signOps d D dots, op.isEntry = true := by
    intro dots op hop
    unfold Anchored.signOps at hop
    split at hop
    · rw [List.mem_singleton.1 hop]; rfl
    · cases hop
  have dig : ∀ c (dots : Cells), ∀ op ∈ r.digitOps d D c dots, op.isEntry = true := by
    intro c dots op hop
    unfold Anchored.digitOps at hop
    split at hop
    · split at hop
      · rw [List.mem_singleton.1 hop]; rfl
      · cases hop
    · cases hop
  intro op hop
  unfold Anchored.opsD at hop
  cases he : r.ops ctx d L D with
  | error e => rw [he] at hop; cases hop
  | ok ops =>
    rw [he] at hop
    have hop : op ∈ ops := hop
    obtain ⟨rule, id⟩ := r
    cases rule
    case undefined dots => exact absurd rfl (h3 dots)
    case matchRule pre chars post b cons => exact absurd rfl (h1 pre chars post b cons)
    case charDef k c dots cons =>
      cases k
      case hyphen => cases he; cases hop
      case digit =>
        cases he
        rcases List.mem_append.mp hop with hop | hop
        · split at hop
          · cases hop
          · rw [List.mem_singleton.mp hop]; rfl
        · exact dig c dots op hop
      case litdigit =>
        cases he
        rcases List.mem_cons.mp hop with rfl | hop
        · rfl
        · exact dig c dots op hop
      all_goals (cases he; rw [List.mem_singleton.mp hop]; rfl)
    case numsign dots => cases he; exact sig dots op hop
    case nonumsign dots _ => cases he; exact sig dots op hop
    case capsletter dots _ => cases he; exact sig dots op hop
    case begcapsword dots _ => cases he; exact sig dots op hop
    case endcapsword dots _ => cases he; exact sig dots op hop
    case text k chars b cons withs =>
      simp only [Anchored.ops] at he
      split at he
      · cases he
      · cases he
        obtain ⟨e, -, rfl⟩ := List.mem_map.mp hop
        rfl
    case pass k test action cons =>
      cases k
      case context => exact absurd rfl (h2 test action cons)
      all_goals (cases he; cases hop)
    case prepunc chars dots cons =>
      cases he
      split at hop
      · rw [List.mem_singleton.mp hop]; rfl
      · cases hop
    case postpunc chars dots cons =>
      cases he
      split at hop
      · rw [List.mem_singleton.mp hop]; rfl
      · cases hop
    case contraction | base | comp6 | syllable | endnum =>
      simp only [Anchored.ops] at he
      split at he
      · cases he <;> (rw [List.mem_singleton.mp hop]; rfl)
      · cases he
        first | (rw [List.mem_singleton.mp hop]; rfl) | cases hop
    all_goals (cases he; first | (rw [List.mem_singleton.mp hop]; rfl) | cases hop)

theorem matchLines_table (ctx : TableCtx) (d : Direction) (rules : List Anchored) :
    matchLinesOf (tableOps ctx d rules) = rules.filterMap (matchLineOf ctx) := by
  unfold matchLinesOf tableOps
  rw [List.filterMap_append, filterMap_none, List.nil_append]
  · refine filterMap_flatMap_ops _ _ _ _ fun r _ => ?_
    cases hr : r.rule
    case matchRule pre chars post b cons =>
      unfold Anchored.opsD matchLineOf
      simp only [Anchored.ops, hr]
      cases ctx.defs.braille b chars <;> rfl
    case pass k test action cons =>
      have e2 : matchLineOf ctx r = none := by unfold matchLineOf; rw [hr]
      rw [e2]
      cases k
      case context => simp only [Anchored.opsD, Anchored.ops, hr]; rfl
      all_goals (simp only [Anchored.opsD, Anchored.ops, hr]; rfl)
    case undefined dots =>
      have e2 : matchLineOf ctx r = none := by unfold matchLineOf; rw [hr]
      rw [e2]
      simp only [Anchored.opsD, Anchored.ops, hr]; rfl
    all_goals
      have e2 : matchLineOf ctx r = none := by unfold matchLineOf; rw [hr]
      rw [e2]
      refine filterMap_none _ _ fun op hop => ?_
      exact (entry_pattern (opsD_entry r (by simp [hr]) (by simp [hr]) (by simp [hr]) op hop)).1
  · intro op hop
    obtain ⟨r, -, hop⟩ := List.mem_flatMap.1 hop
    exact (entry_pattern (firstOps_entry r op hop)).1

theorem contextLines_table (ctx : TableCtx) (d : Direction) (rules : List Anchored) :
    contextLinesOf (tableOps ctx d rules) = rules.filterMap contextLineOf := by
  unfold contextLinesOf tableOps
  rw [List.filterMap_append, filterMap_none, List.nil_append]
  · refine filterMap_flatMap_ops _ _ _ _ fun r _ => ?_
    cases hr : r.rule
    case matchRule pre chars post b cons =>
      unfold Anchored.opsD contextLineOf
      simp only [Anchored.ops, hr]
      cases ctx.defs.braille b chars <;> rfl
    case pass k test action cons =>
      cases k
      all_goals (simp only [Anchored.opsD, Anchored.ops, hr, contextLineOf]; rfl)
    case undefined dots =>
      simp only [Anchored.opsD, Anchored.ops, hr, contextLineOf]; rfl
    all_goals
      have e2 : contextLineOf r = none := by unfold contextLineOf; rw [hr]
      rw [e2]
      refine filterMap_none _ _ fun op hop => ?_
      exact (entry_pattern (opsD_entry r (by simp [hr]) (by simp [hr]) (by simp [hr]) op hop)).2
  · intro op hop
    obtain ⟨r, -, hop⟩ := List.mem_flatMap.1 hop
    exact (entry_pattern (firstOps_entry r op hop)).2

/-- The main stage of a table. -/
def TableCtx.mainTable (ctx : TableCtx) (d : Direction) (rules : List Anchored) : MainTable :=
  Louis.mainTable (ctx.prim d) d (tableOps ctx d rules)

theorem plain_table {ctx : TableCtx} {d : Direction} {rules : List Anchored} (hw : ∀ r ∈ rules, r.rule.PassWritten)
    (hl : PlainMatches rules) : (ctx.mainTable d rules).Plain := by
  constructor
  · intro l hm
    have hm : l ∈ matchLinesOf (tableOps ctx d rules) := hm
    rw [matchLines_table] at hm
    obtain ⟨r, hr, he⟩ := List.mem_filterMap.1 hm
    unfold matchLineOf at he
    split at he
    · next pre chars post b cons e =>
      obtain ⟨to, -, rfl⟩ := Option.map_eq_some_iff.1 he
      exact hl r hr _ _ _ _ _ e
    · cases he
  · intro l hm
    have hm : l ∈ contextLinesOf (tableOps ctx d rules) := hm
    rw [contextLines_table] at hm
    obtain ⟨r, hr, he⟩ := List.mem_filterMap.1 hm
    unfold contextLineOf at he
    split at he
    · next test action cons e =>
      cases he
      have := hw r hr
      rw [e] at this
      exact ⟨this.1, this.2⟩
    · cases he

/-- There is a `prepunc` or `postpunc` line for punctuation characters. -/
def HasPunctLines (ctx : TableCtx) (rules : List Anchored) : Prop :=
  ∃ r ∈ rules, ∃ chars dots cons, (r.rule = .prepunc chars dots cons ∨ r.rule = .postpunc chars dots cons) ∧
    ∀ c ∈ chars, ctx.classes.isPunctuation c = true

/-- What the lines of the table and the text say about every place. -/
structure FlagsOf (sys : Sys) (ctx : TableCtx) (d : Direction) (rules : List Anchored) (spans : List Span) (text : Text)
    (flags : Constraints) : Prop where
  computer : ∀ pos, flags.useComp6 pos = true ↔ InComputerBraille ctx rules spans text pos
  number : ∀ pos, flags.dontContract pos = true ↔ InNumberOf ctx rules text pos
  hyphen : ∀ pos, flags.hyphenationBreak pos = true ↔ d = .forward ∧
    ∃ hy, lastHyphenation sys rules = some hy ∧ BreakAfter hy (ctx.classes.members .letter) text pos
  prepunc : ∀ pos, flags.prepuncOk pos = true ↔ d = .forward ∧ HasPunctLines ctx rules ∧ BeforeWord ctx.classes text pos
  postpunc : ∀ pos, flags.postpuncOk pos = true ↔ d = .forward ∧ HasPunctLines ctx rules ∧ pos < text.length ∧
    AfterWord ctx.classes text pos
  upper : d = .backward → ∀ pos, flags.uppercase pos = true ↔ InCapitalWord (backCaps sys ctx rules) text pos
  title : d = .backward → ∀ pos, flags.titlecase pos = true ↔ AfterCapitalSign (backCaps sys ctx rules) text pos
  digit : d = .backward → ∀ pos, flags.preferDigit pos = true ↔ DigitCell (backNumbers sys ctx rules) text pos

theorem hasPunct_iff {ctx : TableCtx} {rules : List Anchored} : rules.any (fun r => match r.rule with
          | .prepunc chars _ _ | .postpunc chars _ _ => chars.all ctx.classes.isPunctuation
          | _ => false) = true ↔ HasPunctLines ctx rules := by
  rw [List.any_eq_true]
  constructor
  · rintro ⟨r, hr, h⟩
    split at h
    · next chars dots cons e => exact ⟨r, hr, chars, dots, cons, .inl e, List.all_eq_true.1 h⟩
    · next chars dots cons e => exact ⟨r, hr, chars, dots, cons, .inr e, List.all_eq_true.1 h⟩
    · cases h
  · rintro ⟨r, hr, chars, dots, cons, e | e, h⟩
    · exact ⟨r, hr, by rw [e]; exact List.all_eq_true.2 h⟩
    · exact ⟨r, hr, by rw [e]; exact List.all_eq_true.2 h⟩

theorem flags_table {sys : Sys} {ctx : TableCtx} {d : Direction} {rules : List Anchored} {p : Primary}
    (h : MainStage sys ctx d rules p) {text : Text} {spans all : List Span} {flags : Constraints}
    (h1 : if p.triggers.isEmpty then all = spans else Enriches p.triggers p.classes.isWhitespace text spans all)
    (h2 : p.constrainers.precompute text all = .ok flags) : FlagsOf sys ctx d rules spans text flags := by
  have hf := fun pos => precompute_flags h2 pos
  constructor
  · exact fun pos => (hf pos).1.trans (covers_enriched h h1 pos)
  · intro pos
    refine (hf pos).2.1.trans ?_
    have hn : p.constrainers.numeric = if ctx.classes.members .litdigit = [] then none else some (numChars ctx.classes rules) := by
      cases d with
      | forward => rw [C61_constraints_forward h]
      | backward => rw [C61_constraints_backward h]
    rw [hn]
    unfold InNumberOf
    constructor
    · rintro ⟨n, hn, h1, h2⟩
      split at hn
      · cases hn
      · injection hn with hn
        exact ⟨h1, hn ▸ h2⟩
    · rintro ⟨h1, h2⟩
      refine ⟨_, ?_, h1, h2⟩
      rw [if_neg]
      intro hemp
      obtain ⟨i, -, ⟨c, -, hc⟩, -⟩ := h2
      have : (numChars ctx.classes rules).digits = ctx.classes.members .litdigit := rfl
      rw [this, hemp] at hc
      cases hc
  · intro pos
    rw [(hf pos).2.2.2.2 h.constrainers.2.2]
    cases d with
    | forward =>
      rw [C61_constraints_forward h]
      simp only [true_and]
      constructor
      · rintro ⟨x, hx, hbr⟩
        cases hl : lastHyphenation sys rules with
        | none => rw [hl] at hx; cases hx
        | some hy => rw [hl] at hx; cases hx; exact ⟨hy, rfl, hbr⟩
      · rintro ⟨hy, hl, hbr⟩
        rw [hl]
        exact ⟨_, rfl, hbr⟩
    | backward =>
      rw [C61_constraints_backward h]
      simp
  · intro pos
    rw [(hf pos).2.2.1]
    cases d with
    | backward => rw [C61_constraints_backward h]; simp
    | forward =>
      rw [C61_constraints_forward h]
      simp only [true_and]
      rw [← hasPunct_iff]
      constructor
      · rintro ⟨p', hp', -, hpre⟩
        split at hp'
        · next ha =>
          injection hp' with hp'
          subst hp'
          obtain ⟨g1, k, c, g2, g3, g4, g5⟩ := (C23_before_a_word _ _ _).mp hpre
          simp only [mem_members, List.mem_append] at g1 g4 g5
          exact ⟨ha, fun q c hq hc => by simpa using g1 q c hq hc, k, c, g2, g3, g4, fun j c' a b hc' => by simpa using g5 j c' a b hc'⟩
        · cases hp'
      · rintro ⟨ha, g1, k, c, g2, g3, g4, g5⟩
        refine ⟨_, if_pos ha, ?_, (C23_before_a_word _ _ _).mpr ⟨?_, k, c, g2, g3, ?_, ?_⟩⟩
        · have := (List.getElem?_eq_some_iff.1 g3).1
          omega
        · simp only [mem_members]
          intro q c hq hc
          simp [g1 q c hq hc]
        · simpa only [mem_members, List.mem_append] using g4
        · simp only [mem_members]
          intro j c' a b hc'
          simp [g5 j c' a b hc']
  · intro pos
    rw [(hf pos).2.2.2.1]
    cases d with
    | backward => rw [C61_constraints_backward h]; simp
    | forward =>
      rw [C61_constraints_forward h]
      simp only [true_and]
      rw [← hasPunct_iff]
      constructor
      · rintro ⟨p', hp', hlt, hpre⟩
        split at hp'
        · next ha =>
          injection hp' with hp'
          subst hp'
          obtain ⟨g1, k, c, g2, g3, g4, g5⟩ := (C23_after_a_word _ _ _ hlt).mp hpre
          simp only [mem_members, List.mem_append] at g1 g4 g5
          exact ⟨ha, hlt, fun c hc => by simpa using g1 c hc, k, c, g2, g3, g4, fun j c' a b hc' => by simpa using g5 j c' a b hc'⟩
        · cases hp'
      · rintro ⟨ha, hlt, g1, k, c, g2, g3, g4, g5⟩
        refine ⟨_, if_pos ha, hlt, (C23_after_a_word _ _ _ hlt).mpr ⟨?_, k, c, g2, g3, ?_, ?_⟩⟩
        · simp only [mem_members]
          intro c hc
          simp [g1 c hc]
        · simpa only [mem_members, List.mem_append] using g4
        · simp only [mem_members]
          intro j c' a b hc'
          simp [g5 j c' a b hc']
  · intro hd pos; subst hd; exact (flags_backward h h2 pos).1
  · intro hd pos; subst hd; exact (flags_backward h h2 pos).2.1
  · intro hd pos; subst hd; exact (flags_backward h h2 pos).2.2

/-- **C73**, for a whole table: every trace of its main stage consists of the items that `MainTable.Run` describes, with the
signs that the lines demand at every place that is reached. -/
theorem C73_table (sys : Sys) (ctx : TableCtx) (d : Direction) (rules : List Anchored) (p : Primary)
    (h : MainStage sys ctx d rules p) (hw : ∀ r ∈ rules, r.rule.PassWritten) (hl : PlainMatches rules) (cs : Case) (text : Text)
    (spans : List Span) (ts : List Resolved) (ht : p.Traces cs text spans ts) :
    ∃ L flags made all comp emph num letters caps noc,
      (ctx.mainTable d rules).Lists cs.lower L ∧ FlagsOf sys ctx d rules spans text flags ∧
      AllSpans ctx rules text spans all ∧ TableSigns ctx cs.lower rules text all comp emph num letters caps noc ∧
      (ctx.mainTable d rules).Run L cs.lower flags text made ∧
      ts = (ctx.mainTable d rules).trace cs flags
        (fun pos => atPos pos comp ++ atPos pos emph ++ atPos pos num ++ atPos pos letters ++ atPos pos caps ++ atPos pos noc) made := by
  obtain ⟨all, flags, ind, h1, h2, h3, h4⟩ := ht
  obtain ⟨ps, ind', i1, i2, -, -, i5⟩ := C22_indicators_total p.indicators cs.lower text all
  rw [h3] at i2
  injection i2 with i2
  subst i2
  obtain ⟨comp, emph, num, letters, caps, noc, e, hs⟩ := table_signs h cs.lower text all ps i1
  have hf : (fun pos => (ind[pos]?).getD []) =
      fun pos => atPos pos comp ++ atPos pos emph ++ atPos pos num ++ atPos pos letters ++ atPos pos caps ++ atPos pos noc := by
    funext pos
    rw [i5 pos]
    show atPos pos ps = _
    rw [e]
    simp only [atPos_append]
  obtain ⟨L, hL, made, hrun, -, htr⟩ := C73_main_exact _ _ _ _ h.built (plain_table hw hl) cs flags _ (h.ind_empty h3) text
  refine ⟨L, flags, made, all, comp, emph, num, letters, caps, noc, hL, flags_table h h1 h2, allSpans h h1, hs, hrun, ?_⟩
  rw [← hf]
  exact (htr ts).1 h4

end Louis
