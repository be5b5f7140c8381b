import Verif.Props.Explained

/-!
# C56: from the operations of a compiled table to its rules
-/

namespace Louis

theorem resolve_spelledOut {defs : CharDefs} : ∀ {chars dots : Text}, defs.resolve chars = .ok dots → SpelledOut defs chars dots
  | [], dots, h => by cases h; exact .nil
  | c :: cs, dots, h => by
    unfold CharDefs.resolve at h
    split at h
    · cases h
    · next x hx =>
      split at h
      · cases h
      · next ds hds =>
        cases h
        exact .cons hx (resolve_spelledOut hds)

theorem braille_of {defs : CharDefs} {b : Braille} {chars dots : Text} (h : defs.braille b chars = .ok dots) :
    BrailleOf defs chars b dots := by
  cases b with
  | implicit => exact .implicit (resolve_spelledOut h)
  | explicit cells => cases h; exact .explicit cells

theorem neighbour_edge {cl : CharClasses} {n : Option Char} (h : NeighbourIn cl wordEdge n) : AtEdge cl n := by
  cases n with
  | none => trivial
  | some c =>
    obtain ⟨k, hk, hc⟩ := h
    simp only [wordEdge, List.mem_cons, List.not_mem_nil, or_false] at hk
    rcases hk with rfl | rfl
    · exact .inl hc
    · exact .inr hc

theorem neighbour_in {cl : CharClasses} {k : CharClass} (hk : k ≠ .space) {n : Option Char} (h : NeighbourIn cl [k] n) : IsIn cl k n := by
  cases n with
  | none =>
    simp only [NeighbourIn, List.mem_singleton] at h
    exact hk h.symm
  | some c =>
    obtain ⟨k', hk', hc⟩ := h
    rw [List.mem_singleton] at hk'
    subst hk'
    exact hc

theorem neighbour_either {cl : CharClasses} {n : Option Char} (h : NeighbourIn cl [.letter, .space, .punctuation] n) :
    IsIn cl .letter n ∨ AtEdge cl n := by
  cases n with
  | none => exact .inr trivial
  | some c =>
    obtain ⟨k, hk, hc⟩ := h
    simp only [List.mem_cons, List.not_mem_nil, or_false] at hk
    rcases hk with rfl | rfl | rfl
    · exact .inl hc
    · exact .inr (.inl hc)
    · exact .inr (.inr hc)

/-- The boundaries of an insertion hold. -/
def Bounds (cl : CharClasses) (b a : Option (List CharClass)) (before after : Option Char) : Prop :=
  (∀ ks, b = some ks → NeighbourIn cl ks before) ∧ ∀ ks, a = some ks → NeighbourIn cl ks after

theorem edges_here {cl : CharClasses} {k : TextKind} {e : Option (List CharClass) × Option (List CharClass)} (he : e ∈ k.edges)
    {before after : Option Char} (h : Bounds cl e.1 e.2 before after) : k.Here cl before after := by
  have l : CharClass.letter ≠ .space := by decide
  obtain ⟨hb, ha⟩ := h
  cases k <;> simp only [TextKind.edges, List.mem_cons, List.not_mem_nil, or_false] at he
  case always => trivial
  case word => subst he; exact ⟨neighbour_edge (hb _ rfl), neighbour_edge (ha _ rfl)⟩
  case begword => subst he; exact ⟨neighbour_edge (hb _ rfl), neighbour_in l (ha _ rfl)⟩
  case midword => subst he; exact ⟨neighbour_in l (hb _ rfl), neighbour_in l (ha _ rfl)⟩
  case endword => subst he; exact ⟨neighbour_in l (hb _ rfl), neighbour_edge (ha _ rfl)⟩
  case midendword => subst he; exact ⟨neighbour_in l (hb _ rfl), neighbour_either (ha _ rfl)⟩
  case begmidword => subst he; exact ⟨(neighbour_either (hb _ rfl)).symm, neighbour_in l (ha _ rfl)⟩
  case partword =>
    rcases he with rfl | rfl
    · exact .inl (neighbour_in l (hb _ rfl))
    · exact .inr (neighbour_in l (ha _ rfl))
  case prfword =>
    rcases he with rfl | rfl
    · exact ⟨.inl (neighbour_edge (hb _ rfl)), neighbour_edge (ha _ rfl)⟩
    · exact ⟨.inr (neighbour_in l (hb _ rfl)), neighbour_edge (ha _ rfl)⟩
  case sufword =>
    rcases he with rfl | rfl
    · exact ⟨neighbour_edge (hb _ rfl), .inl (neighbour_edge (ha _ rfl))⟩
    · exact ⟨neighbour_edge (hb _ rfl), .inr (neighbour_in l (ha _ rfl))⟩

theorem withs_here {cl classes : CharClasses} {withs : List WithClass} {before after : Option Char}
    (hs : ∀ k, ClassConstraint.start k ∈ resolveWiths classes withs → NeighbourIn cl [k] before)
    (he : ∀ k, ClassConstraint.stop k ∈ resolveWiths classes withs → NeighbourIn cl [k] after) :
    ∀ w ∈ withs, classes.get (CharClass.ofName w.name) ≠ none → w.Here cl before after := by
  intro w hw hne
  cases w with
  | before n =>
    refine he _ (List.mem_filterMap.mpr ⟨_, hw, ?_⟩)
    simp only [WithClass.name] at hne
    cases h : classes.get (CharClass.ofName n) with
    | none => exact absurd h hne
    | some _ => simp [h]
  | after n =>
    refine hs _ (List.mem_filterMap.mpr ⟨_, hw, ?_⟩)
    simp only [WithClass.name] at hne
    cases h : classes.get (CharClass.ofName n) with
    | none => exact absurd h hne
    | some _ => simp [h]

/-- What an entry of a dictionary says about its rule. -/
def EntryOf (ctx : TableCtx) (cl : CharClasses) (d : Direction) (r : Rule) (e : TrieRule) : Prop :=
  (d = .backward ∧ ∃ dots, r.backSign? = some dots ∧ e.chars = [] ∧ e.dots = dots.toText) ∨
  ∀ before after, Bounds cl e.before e.after before after →
    (∀ k, ClassConstraint.start k ∈ e.constraints → NeighbourIn cl [k] before) →
    (∀ k, ClassConstraint.stop k ∈ e.constraints → NeighbourIn cl [k] after) →
    r.Says cl ctx.defs before after e.chars e.dots ∧
      ∀ w ∈ r.withs, ctx.classes.get (CharClass.ofName w.name) ≠ none → w.Here cl before after

/-- What an operation says about the rule it was made from. -/
def OpOf (ctx : TableCtx) (cl : CharClasses) (d : Direction) (r : Anchored) : PrimOp → Prop
  | .char c dots _ o => o = r.origin ∧ (∀ before after, r.rule.Says cl ctx.defs before after [c] dots) ∧ r.rule.withs = []
  | .rule nocross e => e.origin = r.origin ∧ nocross = (r.rule.isNocross && r.rule.backSign?.isNone) ∧ EntryOf ctx cl d r.rule e
  | .comp6 e => e.origin = r.origin ∧ (∃ chars b, r.rule = .comp6 chars b) ∧ EntryOf ctx cl d r.rule e
  | .matchRule pre chars post to o => o = r.origin ∧ ∃ b cons, r.rule = .matchRule pre chars post b cons ∧
      BrailleOf ctx.defs chars b to
  | .context test action o => o = r.origin ∧ ∃ cons, r.rule = .pass .context test action cons
  | .undefined dots => ∃ cells, r.rule = .undefined cells ∧ dots = cells.toText
  | .digitOverride cell c o => o = r.origin ∧ d = .backward ∧
      ∃ k cells cons, r.rule = .charDef k c cells cons ∧ cells.toText = [cell]

theorem simple_entry {ctx : TableCtx} {cl : CharClasses} {d : Direction} {r : Rule} {e : TrieRule} (hw : r.withs = [])
    (h : ∀ before after, Bounds cl e.before e.after before after → r.Says cl ctx.defs before after e.chars e.dots) :
    EntryOf ctx cl d r e :=
  .inr fun before after hb _ _ => ⟨h before after hb, by intro w hw'; rw [hw] at hw'; cases hw'⟩

theorem ops_of {ctx : TableCtx} {cl : CharClasses} {d : Direction} {L : List Char} {D : List Text} {r : Anchored} {ops : List PrimOp}
    (h : r.ops ctx d L D = .ok ops) : ∀ op ∈ ops, OpOf ctx cl d r op := by
  have sig : ∀ dots : Cells, r.rule.backSign? = some dots → ∀ op ∈ r.signOps d D dots, OpOf ctx cl d r op := by
    intro dots hb op hop
    unfold Anchored.signOps at hop
    split at hop
    · next hd =>
      rw [List.mem_singleton.mp hop]
      simp only [Bool.and_eq_true, beq_iff_eq] at hd
      exact ⟨rfl, by rw [hb]; simp, .inl ⟨hd.1, dots, hb, rfl, rfl⟩⟩
    · cases hop
  have dig : ∀ k c (dots : Cells) cons, r.rule = .charDef k c dots cons → ∀ op ∈ r.digitOps d D c dots, OpOf ctx cl d r op := by
    intro k c dots cons hr op hop
    unfold Anchored.digitOps at hop
    split at hop
    · next cell =>
      split at hop
      · rw [List.mem_singleton.mp hop]
        exact ⟨rfl, rfl, k, _, cons, hr, rfl⟩
      · cases hop
    · cases hop
  have dg : CharClass.digit ≠ .space := by decide
  obtain ⟨rule, id⟩ := r
  intro op hop
  cases rule
  case undefined dots =>
    cases h
    rw [List.mem_singleton.mp hop]
    exact ⟨dots, rfl, rfl⟩
  case charDef k c dots cons =>
    have hc : OpOf ctx cl d ⟨.charDef k c dots cons, id⟩
        (.char c dots.toText (Rule.prec (.charDef k c dots cons)) (Anchored.origin ⟨.charDef k c dots cons, id⟩)) :=
      ⟨rfl, fun _ _ => .charDef, rfl⟩
    cases k
    case hyphen => cases h; cases hop
    case digit =>
      cases h
      rcases List.mem_append.mp hop with hop | hop
      · split at hop
        · cases hop
        · rw [List.mem_singleton.mp hop]; exact hc
      · exact dig _ _ _ _ rfl op hop
    case litdigit =>
      cases h
      rcases List.mem_cons.mp hop with rfl | hop
      · exact hc
      · exact dig _ _ _ _ rfl op hop
    all_goals
      cases h
      rw [List.mem_singleton.mp hop]
      exact hc
  case numsign => cases h; exact sig _ rfl op hop
  case nonumsign => cases h; exact sig _ rfl op hop
  case capsletter => cases h; exact sig _ rfl op hop
  case begcapsword => cases h; exact sig _ rfl op hop
  case endcapsword => cases h; exact sig _ rfl op hop
  case base name derived b =>
    simp only [Anchored.ops] at h
    split at h
    · next dots hd =>
      cases h
      rw [List.mem_singleton.mp hop]
      exact ⟨rfl, fun _ _ => .base hd, rfl⟩
    · cases h; cases hop
  case contraction chars =>
    simp only [Anchored.ops] at h
    split at h
    · cases h
    · next dots hd =>
      cases h
      rw [List.mem_singleton.mp hop]
      refine ⟨rfl, by simp [Rule.backSign?], simple_entry rfl fun b a hb => .contraction (resolve_spelledOut hd)
        (neighbour_edge (hb.1 _ rfl)) (neighbour_edge (hb.2 _ rfl))⟩
  case comp6 chars b =>
    simp only [Anchored.ops] at h
    split at h
    · cases h
    · next dots hd =>
      cases h
      rw [List.mem_singleton.mp hop]
      exact ⟨rfl, ⟨_, _, rfl⟩, simple_entry rfl fun _ _ _ => .comp6 (braille_of hd)⟩
  case text k chars b cons withs =>
    simp only [Anchored.ops] at h
    split at h
    · cases h
    · next dots hd =>
      cases h
      obtain ⟨e, he, rfl⟩ := List.mem_map.mp hop
      refine ⟨rfl, by simp [Rule.backSign?], .inr fun before after hb hs hst => ⟨.text (braille_of hd) (edges_here he hb), ?_⟩⟩
      exact withs_here hs hst
  case syllable chars b =>
    simp only [Anchored.ops] at h
    split at h
    · cases h
    · next dots hd =>
      cases h
      rw [List.mem_singleton.mp hop]
      exact ⟨rfl, by simp [Rule.backSign?], simple_entry rfl fun _ _ _ => .syllable (braille_of hd)⟩
  case largesign chars b =>
    cases h
    rw [List.mem_singleton.mp hop]
    exact ⟨rfl, by simp [Rule.backSign?], simple_entry rfl fun _ _ _ => .largesign⟩
  case joinword chars b =>
    cases h
    rw [List.mem_singleton.mp hop]
    exact ⟨rfl, by simp [Rule.backSign?], simple_entry rfl fun _ _ hb => .joinword (neighbour_edge (hb.1 _ rfl))
      (neighbour_edge (hb.2 _ rfl))⟩
  case lowword chars b =>
    cases h
    rw [List.mem_singleton.mp hop]
    exact ⟨rfl, by simp [Rule.backSign?], simple_entry rfl fun _ _ hb => .lowword (neighbour_edge (hb.1 _ rfl))
      (neighbour_edge (hb.2 _ rfl))⟩
  case begnum chars b =>
    cases h
    rw [List.mem_singleton.mp hop]
    exact ⟨rfl, by simp [Rule.backSign?], simple_entry rfl fun _ _ hb => .begnum (neighbour_edge (hb.1 _ rfl))
      (neighbour_in dg (hb.2 _ rfl))⟩
  case midnum chars b =>
    cases h
    rw [List.mem_singleton.mp hop]
    exact ⟨rfl, by simp [Rule.backSign?], simple_entry rfl fun _ _ hb => .midnum (neighbour_in dg (hb.1 _ rfl))
      (neighbour_in dg (hb.2 _ rfl))⟩
  case endnum chars b cons =>
    simp only [Anchored.ops] at h
    split at h
    · cases h
    · next dots hd =>
      cases h
      rw [List.mem_singleton.mp hop]
      exact ⟨rfl, by simp [Rule.backSign?], simple_entry rfl fun _ _ hb => .endnum (braille_of hd) (neighbour_in dg (hb.1 _ rfl))⟩
  case prepunc chars b =>
    cases h
    split at hop
    · rw [List.mem_singleton.mp hop]
      exact ⟨rfl, by simp [Rule.backSign?], simple_entry rfl fun _ _ _ => .prepunc⟩
    · cases hop
  case postpunc chars b =>
    cases h
    split at hop
    · rw [List.mem_singleton.mp hop]
      exact ⟨rfl, by simp [Rule.backSign?], simple_entry rfl fun _ _ _ => .postpunc⟩
    · cases hop
  case matchRule pre chars post b cons =>
    simp only [Anchored.ops] at h
    split at h
    · cases h
    · next dots hd =>
      cases h
      rw [List.mem_singleton.mp hop]
      exact ⟨rfl, b, cons, rfl, braille_of hd⟩
  case pass k test action cons =>
    cases k
    case context =>
      cases h
      rw [List.mem_singleton.mp hop]
      exact ⟨rfl, cons, rfl⟩
    all_goals cases h; cases hop
  all_goals cases h; cases hop

theorem tableOps_of {ctx : TableCtx} {cl : CharClasses} {d : Direction} {rules : List Anchored} :
    ∀ op ∈ tableOps ctx d rules, ∃ r ∈ rules, OpOf ctx cl d r op := by
  intro op hop
  rcases List.mem_append.mp hop with h | h
  · obtain ⟨r, hr, h⟩ := List.mem_flatMap.mp h
    refine ⟨r, hr, ?_⟩
    unfold Anchored.firstOps at h
    split at h
    · next e => rw [List.mem_singleton.mp h]; exact ⟨rfl, fun _ _ => by rw [e]; exact .decpoint, by rw [e]; rfl⟩
    · next e => rw [List.mem_singleton.mp h]; exact ⟨rfl, fun _ _ => by rw [e]; exact .charDef, by rw [e]; rfl⟩
    · cases h
  · obtain ⟨r, hr, h⟩ := List.mem_flatMap.mp h
    refine ⟨r, hr, ?_⟩
    unfold Anchored.opsD at h
    cases e : r.ops ctx d (litdigitChars d rules) (letterDotsOf d rules) with
    | error _ => rw [e] at h; cases h
    | ok ops => rw [e] at h; exact ops_of e op h

end Louis
