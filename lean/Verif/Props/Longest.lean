import Verif.Spec.Longest
import Verif.Props.GatesBackward

/-!
# C69: no line of the table that could be used is passed over for a shorter one
-/

namespace Louis

open Regexp (Fault)

/-! ## The entries of a line -/

theorem spelledOut_resolve {defs : CharDefs} : ∀ {chars dots : Text}, SpelledOut defs chars dots → defs.resolve chars = .ok dots
  | _, _, .nil => rfl
  | _, _, .cons hc h => by
    unfold CharDefs.resolve
    rw [hc]
    simp only [spelledOut_resolve h]

theorem of_brailleOf {defs : CharDefs} {b : Braille} {chars dots : Text} (h : BrailleOf defs chars b dots) :
    defs.braille b chars = .ok dots := by
  cases h with
  | explicit cells => rfl
  | implicit h => exact spelledOut_resolve h

theorem edge_neighbour {cl : CharClasses} {n : Option Char} (h : AtEdge cl n) : NeighbourIn cl wordEdge n := by
  cases n with
  | none => simp [NeighbourIn, wordEdge]
  | some c =>
    rcases h with h | h
    · exact ⟨_, by simp [wordEdge], h⟩
    · exact ⟨.punctuation, by simp [wordEdge], h⟩

theorem in_neighbour {cl : CharClasses} {k : CharClass} {n : Option Char} (h : IsIn cl k n) : NeighbourIn cl [k] n := by
  cases n with
  | none => exact h.elim
  | some c => exact ⟨k, by simp, h⟩

theorem either_neighbour {cl : CharClasses} {n : Option Char} (h : IsIn cl .letter n ∨ AtEdge cl n) :
    NeighbourIn cl [.letter, .space, .punctuation] n := by
  cases n with
  | none => simp [NeighbourIn]
  | some c =>
    rcases h with h | h | h
    · exact ⟨.letter, by simp, h⟩
    · exact ⟨.space, by simp, h⟩
    · exact ⟨.punctuation, by simp, h⟩

theorem bounds_two {cl : CharClasses} {b a : List CharClass} {before after : Option Char} (hb : NeighbourIn cl b before)
    (ha : NeighbourIn cl a after) : Bounds cl (some b) (some a) before after :=
  ⟨fun _ e => by cases e; exact hb, fun _ e => by cases e; exact ha⟩

/-- Where an opcode may be used, one of its entries has its boundaries. -/
theorem here_edges {cl : CharClasses} {k : TextKind} {before after : Option Char} (h : k.Here cl before after) :
    ∃ e ∈ k.edges, Bounds cl e.1 e.2 before after := by
  cases k
  case always => exact ⟨(none, none), List.mem_singleton.mpr rfl, ⟨fun _ e => (nomatch e), fun _ e => (nomatch e)⟩⟩
  case word => exact ⟨_, List.mem_singleton.mpr rfl, bounds_two (edge_neighbour h.1) (edge_neighbour h.2)⟩
  case begword => exact ⟨_, List.mem_singleton.mpr rfl, bounds_two (edge_neighbour h.1) (in_neighbour h.2)⟩
  case midword => exact ⟨_, List.mem_singleton.mpr rfl, bounds_two (in_neighbour h.1) (in_neighbour h.2)⟩
  case endword => exact ⟨_, List.mem_singleton.mpr rfl, bounds_two (in_neighbour h.1) (edge_neighbour h.2)⟩
  case midendword => exact ⟨_, List.mem_singleton.mpr rfl, bounds_two (in_neighbour h.1) (either_neighbour h.2)⟩
  case begmidword => exact ⟨_, List.mem_singleton.mpr rfl, bounds_two (either_neighbour h.1.symm) (in_neighbour h.2)⟩
  case partword =>
    rcases h with h | h
    · exact ⟨(some [.letter], none), by simp [TextKind.edges], ⟨fun _ e => by cases e; exact in_neighbour h, fun _ e => (nomatch e)⟩⟩
    · exact ⟨(none, some [.letter]), by simp [TextKind.edges], ⟨fun _ e => (nomatch e), fun _ e => by cases e; exact in_neighbour h⟩⟩
  case prfword =>
    rcases h with ⟨h | h, h'⟩
    · exact ⟨(some wordEdge, some wordEdge), by simp [TextKind.edges], bounds_two (edge_neighbour h) (edge_neighbour h')⟩
    · exact ⟨(some [.letter], some wordEdge), by simp [TextKind.edges], bounds_two (in_neighbour h) (edge_neighbour h')⟩
  case sufword =>
    rcases h with ⟨h, h' | h'⟩
    · exact ⟨(some wordEdge, some wordEdge), by simp [TextKind.edges], bounds_two (edge_neighbour h) (edge_neighbour h')⟩
    · exact ⟨(some wordEdge, some [.letter]), by simp [TextKind.edges], bounds_two (edge_neighbour h) (in_neighbour h')⟩

theorem edges_count {k : TextKind} {chars b cons withs} {e : Option (List CharClass) × Option (List CharClass)} (h : e ∈ k.edges) :
    e.1.toList.length + e.2.toList.length = (Rule.text k chars b cons withs).bounds := by
  cases k <;> simp only [TextKind.edges, List.mem_cons, List.not_mem_nil, or_false] at h
  case partword | prfword | sufword => rcases h with rfl | rfl <;> rfl
  all_goals (subst h; rfl)

theorem resolveWiths_length (classes : CharClasses) (withs : List WithClass) : (resolveWiths classes withs).length =
    (withs.filter fun w => (classes.get (CharClass.ofName w.name)).isSome).length := by
  unfold resolveWiths
  rw [List.length_filterMap_eq_countP, List.countP_eq_length_filter]
  refine congrArg List.length (List.filter_congr fun w _ => ?_)
  cases w <;> exact Option.isSome_map

theorem here_withs {cl classes : CharClasses} {withs : List WithClass} {before after : Option Char}
    (h : ∀ w ∈ withs, classes.get (CharClass.ofName w.name) ≠ none → w.Here cl before after) :
    (∀ k, ClassConstraint.start k ∈ resolveWiths classes withs → NeighbourIn cl [k] before) ∧
    ∀ k, ClassConstraint.stop k ∈ resolveWiths classes withs → NeighbourIn cl [k] after := by
  constructor
  · intro k hk
    obtain ⟨w, hw, e⟩ := List.mem_filterMap.mp hk
    cases w with
    | before n => cases hg : classes.get (CharClass.ofName n) <;> simp [hg] at e
    | after n =>
      cases hg : classes.get (CharClass.ofName n) with
      | none => simp [hg] at e
      | some x =>
        simp only [hg, Option.map_some, Option.some.injEq, ClassConstraint.start.injEq, ClassConstraint.stop.injEq] at e
        subst e
        exact h _ hw (by simp only [WithClass.name]; rw [hg]; exact fun x => nomatch x)
  · intro k hk
    obtain ⟨w, hw, e⟩ := List.mem_filterMap.mp hk
    cases w with
    | after n => cases hg : classes.get (CharClass.ofName n) <;> simp [hg] at e
    | before n =>
      cases hg : classes.get (CharClass.ofName n) with
      | none => simp [hg] at e
      | some x =>
        simp only [hg, Option.map_some, Option.some.injEq, ClassConstraint.start.injEq, ClassConstraint.stop.injEq] at e
        subst e
        exact h _ hw (by simp only [WithClass.name]; rw [hg]; exact fun x => nomatch x)

/-- How many conditions an entry has. -/
def TrieRule.conditions (e : TrieRule) : Nat := e.constraints.length + e.before.toList.length + e.after.toList.length

theorem weight_conditions (e : TrieRule) (d : Direction) : e.weight d = (e.from d).length + e.conditions := by
  unfold TrieRule.weight TrieRule.conditions
  omega

/-- Where a line says something, one of its entries applies. -/
theorem entry_exists {ctx : TableCtx} {cl : CharClasses} {d : Direction} {rules : List Anchored}
    (hops : ∀ r ∈ rules, ∃ ops, r.ops ctx d (litdigitChars d rules) (letterDotsOf d rules) = .ok ops) {r : Anchored} (hr : r ∈ rules)
    (ht : r.rule.IsText d) {before after : Option Char} {chars dots : Text} (hsay : r.rule.Says cl ctx.defs before after chars dots)
    (hw : ∀ w ∈ r.rule.withs, ctx.classes.get (CharClass.ofName w.name) ≠ none → w.Here cl before after) :
    ∃ e : TrieRule, e.chars = chars ∧ e.dots = dots ∧ e.origin = r.origin ∧
      (if r.rule.isNocross = true then e ∈ nocrossRules (tableOps ctx d rules) else e ∈ trieRules d (tableOps ctx d rules)) ∧
      Bounds cl e.before e.after before after ∧
      (∀ k, ClassConstraint.start k ∈ e.constraints → NeighbourIn cl [k] before) ∧
      (∀ k, ClassConstraint.stop k ∈ e.constraints → NeighbourIn cl [k] after) ∧ e.conditions = r.rule.conditions ctx.classes := by
  obtain ⟨ops, hop⟩ := hops r hr
  have second : ∀ op ∈ ops, op ∈ tableOps ctx d rules := by
    intro op h
    refine List.mem_append.mpr (.inr (List.mem_flatMap.mpr ⟨r, hr, ?_⟩))
    unfold Anchored.opsD
    rw [hop]
    exact h
  have first : ∀ op ∈ r.firstOps, op ∈ tableOps ctx d rules := fun op h =>
    List.mem_append.mpr (.inl (List.mem_flatMap.mpr ⟨r, hr, h⟩))
  have ins : ∀ {chars dots : Text} {b a : Option (List CharClass)} {ws : List ClassConstraint},
      r.insertion chars dots b a ws ∈ tableOps ctx d rules →
      (if r.rule.isNocross = true then (⟨chars, dots, b, a, ws, r.rule.prec, .main, r.origin⟩ : TrieRule) ∈ nocrossRules (tableOps ctx d rules)
        else (⟨chars, dots, b, a, ws, r.rule.prec, .main, r.origin⟩ : TrieRule) ∈ trieRules d (tableOps ctx d rules)) := by
    intro chars dots b a ws h
    unfold Anchored.insertion at h
    split
    · next hn => rw [hn] at h; exact List.mem_filterMap.mpr ⟨_, h, rfl⟩
    · next hn =>
      rw [Bool.not_eq_true] at hn
      rw [hn] at h
      exact List.mem_filterMap.mpr ⟨_, h, rfl⟩
  have nob : Bounds cl none none before after := ⟨fun _ e => (nomatch e), fun _ e => (nomatch e)⟩
  have now : ∀ n : Option Char, (∀ k, ClassConstraint.start k ∈ ([] : List ClassConstraint) → NeighbourIn cl [k] n) ∧
      ∀ k, ClassConstraint.stop k ∈ ([] : List ClassConstraint) → NeighbourIn cl [k] n := fun n =>
    ⟨fun _ h => (nomatch h), fun _ h => (nomatch h)⟩
  obtain ⟨rule, id⟩ := r
  simp only at hsay ht hw ins ⊢
  cases hsay with
  | @text k _ b cons withs _ hb hh =>
    simp only [Anchored.ops, of_brailleOf hb] at hop
    cases hop
    obtain ⟨e, he, hbd⟩ := here_edges hh
    obtain ⟨w1, w2⟩ := here_withs hw
    refine ⟨_, rfl, rfl, rfl, ins (second _ (List.mem_map.mpr ⟨e, he, rfl⟩)), hbd, w1, w2, ?_⟩
    have := edges_count (chars := chars) (b := b) (cons := cons) (withs := withs) he
    unfold TrieRule.conditions Rule.conditions
    simp only [Rule.withs] at *
    rw [resolveWiths_length]
    omega
  | contraction hs h1 h2 =>
    simp only [Anchored.ops, CharDefs.braille, spelledOut_resolve hs] at hop
    cases hop
    exact ⟨_, rfl, rfl, rfl, ins (second _ (List.mem_singleton.mpr rfl)), bounds_two (edge_neighbour h1) (edge_neighbour h2),
      (now _).1, (now _).2, rfl⟩
  | syllable hb =>
    simp only [Anchored.ops, of_brailleOf hb] at hop
    cases hop
    exact ⟨_, rfl, rfl, rfl, ins (second _ (List.mem_singleton.mpr rfl)), nob, (now _).1, (now _).2, rfl⟩
  | largesign =>
    cases hop
    exact ⟨_, rfl, rfl, rfl, ins (second _ (List.mem_singleton.mpr rfl)), nob, (now _).1, (now _).2, rfl⟩
  | joinword h1 h2 | lowword h1 h2 =>
    cases hop
    exact ⟨_, rfl, rfl, rfl, ins (second _ (List.mem_singleton.mpr rfl)), bounds_two (edge_neighbour h1) (edge_neighbour h2),
      (now _).1, (now _).2, rfl⟩
  | begnum h1 h2 =>
    cases hop
    exact ⟨_, rfl, rfl, rfl, ins (second _ (List.mem_singleton.mpr rfl)), bounds_two (edge_neighbour h1) (in_neighbour h2),
      (now _).1, (now _).2, rfl⟩
  | midnum h1 h2 =>
    cases hop
    exact ⟨_, rfl, rfl, rfl, ins (second _ (List.mem_singleton.mpr rfl)), bounds_two (in_neighbour h1) (in_neighbour h2),
      (now _).1, (now _).2, rfl⟩
  | endnum hb h1 =>
    simp only [Anchored.ops, of_brailleOf hb] at hop
    cases hop
    exact ⟨_, rfl, rfl, rfl, ins (second _ (List.mem_singleton.mpr rfl)),
      ⟨fun _ e => by cases e; exact in_neighbour h1, fun _ e => (nomatch e)⟩, (now _).1, (now _).2, rfl⟩
  | prepunc => exact ht.elim
  | postpunc => exact ht.elim
  | comp6 => exact ht.elim
  | @charDef k c cons cells =>
    have hd : d = .backward := ht
    subst hd
    refine ⟨_, rfl, rfl, rfl, List.mem_filterMap.mpr ⟨.char c cells.toText (Rule.prec (.charDef k c cells cons)) _, ?_, rfl⟩, nob,
      (now _).1, (now _).2, rfl⟩
    cases k
    case hyphen => exact first _ (List.mem_singleton.mpr rfl)
    case digit =>
      cases hop
      exact second _ (List.mem_append.mpr (.inl (List.mem_singleton.mpr rfl)))
    case litdigit => cases hop; exact second _ (List.mem_cons.mpr (.inl rfl))
    all_goals (cases hop; exact second _ (List.mem_singleton.mpr rfl))
  | @decpoint c cells =>
    have hd : d = .backward := ht
    subst hd
    exact ⟨_, rfl, rfl, rfl, List.mem_filterMap.mpr ⟨.char c cells.toText (Rule.prec (.decpoint c cells)) _,
      first _ (List.mem_singleton.mpr rfl), rfl⟩, nob, (now _).1, (now _).2, rfl⟩
  | @base name derived c dots hg =>
    have hd : d = .backward := ht
    subst hd
    simp only [Anchored.ops, hg] at hop
    cases hop
    exact ⟨_, rfl, rfl, rfl, List.mem_filterMap.mpr ⟨.char derived dots (Rule.prec (.base name derived c)) _,
      second _ (List.mem_singleton.mpr rfl), rfl⟩, nob, (now _).1, (now _).2, rfl⟩

/-! ## The conditions of the entries -/

/-- Classes for which every opcode may be used between two `x`. -/
def anywhere : CharClasses := [(.space, 'x'), (.letter, 'x'), (.digit, 'x')]

theorem anywhere_edge : AtEdge anywhere (some 'x') := .inl (by decide)

theorem anywhere_letter : IsIn anywhere .letter (some 'x') := by unfold IsIn; decide

theorem anywhere_digit : IsIn anywhere .digit (some 'x') := by unfold IsIn; decide

theorem anywhere_here (k : TextKind) : k.Here anywhere (some 'x') (some 'x') := by
  have e := anywhere_edge
  have l := anywhere_letter
  cases k <;> simp [TextKind.Here, e, l]

theorem isFor_of {ctx : TableCtx} {d : Direction} {r : Rule} {e : TrieRule}
    (h : r.Says anywhere ctx.defs (some 'x') (some 'x') e.chars e.dots) : r.IsFor ctx d (e.from d) := by
  cases d with
  | forward => exact ⟨e.chars, e.dots, e.dots, ⟨rfl, rfl⟩, .inl ⟨_, _, _, h⟩⟩
  | backward => exact ⟨e.chars, e.dots, e.chars, ⟨rfl, rfl⟩, .inl ⟨_, _, _, h⟩⟩

/-- What an operation says about the number of conditions of its line. -/
def OpCount (ctx : TableCtx) (d : Direction) (r : Rule) : PrimOp → Prop
  | .rule _ e | .comp6 e => e.conditions = r.conditions ctx.classes ∧ r.IsFor ctx d (e.from d) ∧ r.IsChar = false
  | .char c dots _ _ => r.conditions ctx.classes = 0 ∧ r.Says anywhere ctx.defs (some 'x') (some 'x') [c] dots
  | .digitOverride _ _ _ => r.conditions ctx.classes = 0
  | _ => True

theorem ops_count {ctx : TableCtx} {d : Direction} {L : List Char} {D : List Text} {r : Anchored} {ops : List PrimOp}
    (h : r.ops ctx d L D = .ok ops) : ∀ op ∈ ops, OpCount ctx d r.rule op := by
  have sig : ∀ dots : Cells, r.rule.backSign? = some dots → r.rule.conditions ctx.classes = 0 →
      ∀ op ∈ r.signOps d D dots, OpCount ctx d r.rule op := by
    intro dots hb h0 op hop
    unfold Anchored.signOps at hop
    split at hop
    · next hd =>
      rw [List.mem_singleton.mp hop]
      simp only [Bool.and_eq_true, beq_iff_eq] at hd
      obtain ⟨rfl, -⟩ := hd
      refine ⟨h0.symm, ⟨[], dots.toText, [], ⟨rfl, rfl⟩, .inr ⟨rfl, dots, hb, rfl, rfl⟩⟩, ?_⟩
      cases hr : r.rule <;> first | rfl | (rw [hr] at hb; cases hb)
    · cases hop
  have dig : ∀ c (dots : Cells), r.rule.conditions ctx.classes = 0 → ∀ op ∈ r.digitOps d D c dots, OpCount ctx d r.rule op := by
    intro c dots h0 op hop
    unfold Anchored.digitOps at hop
    split at hop
    · split at hop
      · rw [List.mem_singleton.mp hop]; exact h0
      · cases hop
    · cases hop
  obtain ⟨rule, id⟩ := r
  intro op hop
  cases rule
  case undefined dots => cases h; rw [List.mem_singleton.mp hop]; trivial
  case charDef k c dots cons =>
    have hc : OpCount ctx d (.charDef k c dots cons) (.char c dots.toText (Rule.prec (.charDef k c dots cons))
        (Anchored.origin ⟨.charDef k c dots cons, id⟩)) := ⟨rfl, .charDef⟩
    cases k
    case hyphen => cases h; cases hop
    case digit =>
      cases h
      rcases List.mem_append.mp hop with hop | hop
      · split at hop
        · cases hop
        · rw [List.mem_singleton.mp hop]; exact hc
      · exact dig c dots rfl op hop
    case litdigit =>
      cases h
      rcases List.mem_cons.mp hop with rfl | hop
      · exact hc
      · exact dig c dots rfl op hop
    all_goals (cases h; rw [List.mem_singleton.mp hop]; exact hc)
  case numsign dots => cases h; exact sig dots rfl rfl op hop
  case nonumsign dots _ => cases h; exact sig dots rfl rfl op hop
  case capsletter dots _ => cases h; exact sig dots rfl rfl op hop
  case begcapsword dots _ => cases h; exact sig dots rfl rfl op hop
  case endcapsword dots _ => cases h; exact sig dots rfl rfl op hop
  case contraction chars =>
    simp only [Anchored.ops, CharDefs.braille] at h
    split at h
    · cases h
    · next dots hd =>
      cases h
      rw [List.mem_singleton.mp hop]
      exact ⟨rfl, isFor_of (.contraction (resolve_spelledOut hd) anywhere_edge anywhere_edge), rfl⟩
  case base name derived base =>
    simp only [Anchored.ops] at h
    split at h
    · next dots hd =>
      cases h
      rw [List.mem_singleton.mp hop]
      exact ⟨rfl, .base hd⟩
    · cases h; cases hop
  case comp6 chars b =>
    simp only [Anchored.ops] at h
    split at h
    · cases h
    · next dots hd =>
      cases h
      rw [List.mem_singleton.mp hop]
      exact ⟨rfl, isFor_of (.comp6 (braille_of hd)), rfl⟩
  case text k chars b cons withs =>
    simp only [Anchored.ops] at h
    split at h
    · cases h
    · next dots hd =>
      cases h
      obtain ⟨e, he, rfl⟩ := List.mem_map.mp hop
      refine ⟨?_, isFor_of (.text (braille_of hd) (anywhere_here k)), rfl⟩
      have := edges_count (chars := chars) (b := b) (cons := cons) (withs := withs) he
      unfold TrieRule.conditions Rule.conditions
      simp only [Rule.withs] at *
      rw [resolveWiths_length]
      omega
  case syllable chars b =>
    simp only [Anchored.ops] at h
    split at h
    · cases h
    · next dots hd =>
      cases h
      rw [List.mem_singleton.mp hop]
      exact ⟨rfl, isFor_of (.syllable (braille_of hd)), rfl⟩
  case largesign => cases h; rw [List.mem_singleton.mp hop]; exact ⟨rfl, isFor_of .largesign, rfl⟩
  case joinword => cases h; rw [List.mem_singleton.mp hop]; exact ⟨rfl, isFor_of (.joinword anywhere_edge anywhere_edge), rfl⟩
  case lowword => cases h; rw [List.mem_singleton.mp hop]; exact ⟨rfl, isFor_of (.lowword anywhere_edge anywhere_edge), rfl⟩
  case begnum => cases h; rw [List.mem_singleton.mp hop]; exact ⟨rfl, isFor_of (.begnum anywhere_edge anywhere_digit), rfl⟩
  case midnum => cases h; rw [List.mem_singleton.mp hop]; exact ⟨rfl, isFor_of (.midnum anywhere_digit anywhere_digit), rfl⟩
  case endnum chars b cons =>
    simp only [Anchored.ops] at h
    split at h
    · cases h
    · next dots hd =>
      cases h
      rw [List.mem_singleton.mp hop]
      exact ⟨rfl, isFor_of (.endnum (braille_of hd) anywhere_digit), rfl⟩
  case prepunc chars dots cons =>
    cases h
    split at hop
    · rw [List.mem_singleton.mp hop]; exact ⟨rfl, isFor_of .prepunc, rfl⟩
    · cases hop
  case postpunc chars dots cons =>
    cases h
    split at hop
    · rw [List.mem_singleton.mp hop]; exact ⟨rfl, isFor_of .postpunc, rfl⟩
    · cases hop
  case matchRule pre chars post b cons =>
    simp only [Anchored.ops] at h
    split at h
    · cases h
    · cases h; rw [List.mem_singleton.mp hop]; trivial
  case pass k test action cons =>
    cases k
    case context => cases h; rw [List.mem_singleton.mp hop]; trivial
    all_goals cases h; cases hop
  all_goals cases h; cases hop

/-- Every operation comes from a line, whose origin it has, and with whose number of conditions. -/
theorem tableOps_count {ctx : TableCtx} {d : Direction} {rules : List Anchored} :
    ∀ op ∈ tableOps ctx d rules, ∃ r ∈ rules, (∀ o, op.origin? = some o → o = r.origin) ∧ OpCount ctx d r.rule op := by
  intro op hop
  rcases List.mem_append.mp hop with h | h
  · obtain ⟨r, hr, h⟩ := List.mem_flatMap.mp h
    refine ⟨r, hr, ?_⟩
    unfold Anchored.firstOps at h
    split at h
    · next e =>
      rw [List.mem_singleton.mp h]
      exact ⟨fun o ho => by cases ho; rfl, by rw [e]; exact ⟨rfl, .decpoint⟩⟩
    · next e =>
      rw [List.mem_singleton.mp h]
      exact ⟨fun o ho => by cases ho; rfl, by rw [e]; exact ⟨rfl, .charDef⟩⟩
    · cases h
  · obtain ⟨r, hr, h⟩ := List.mem_flatMap.mp h
    unfold Anchored.opsD at h
    cases e : r.ops ctx d (litdigitChars d rules) (letterDotsOf d rules) with
    | error _ => rw [e] at h; cases h
    | ok ops => rw [e] at h; exact ⟨r, hr, ops_origin e op h, ops_count e op h⟩

/-! ## The weight of what is found -/

theorem constraints_length (ctx : CharClasses) (cs : List ClassConstraint) :
    (startPath ctx cs).length + (stopPath ctx cs).length = cs.length := by
  induction cs with
  | nil => rfl
  | cons c cs ih =>
    unfold startPath stopPath at *
    cases c <;> simp <;> omega

theorem path_length (e : TrieRule) (ctx : CharClasses) (d : Direction) : (e.path ctx d).length = e.weight d := by
  unfold TrieRule.path TrieRule.weight
  have := constraints_length ctx e.constraints
  cases e.before <;> cases e.after <;> simp <;> omega

/-- A dictionary finds a rule that applies; with its whole weight if no later rule on its path has a precedence. -/
theorem found_entry {ctx : CharClasses} {lower : Char → List Char} {d : Direction} {rules : List TrieRule} {t : Trie}
    (h : Dictionary ctx d rules t) {input : Text} {prev : Option Char} {e : TrieRule} (he : e ∈ rules)
    (hm : RuleMatches ctx lower d e input prev) :
    ∃ f ∈ t.find lower input prev, ∃ e' ∈ rules, e'.path ctx d = e.path ctx d ∧ e'.from d = e.from d ∧ FromRule d e' f ∧
      (e.from d).length ≤ f.weight ∧
      ((∀ x ∈ (rules.filter fun x => x.path ctx d = e.path ctx d).tail, x.prec = .default) → f.weight = e.weight d) := by
  have hmap : t.Map := by obtain ⟨t, -, h2⟩ := h; exact h2.1
  have hin : e ∈ rules.filter fun x => x.path ctx d = e.path ctx d := List.mem_filter.2 ⟨he, by simp⟩
  obtain ⟨f, hf⟩ := store_foldl_some (d := d) (rs := rules.filter fun x => x.path ctx d = e.path ctx d) (o := none)
    (.inr (by intro e0; rw [e0] at hin; cases hin))
  refine ⟨f, (mem_find t input prev hmap).2 ⟨e.path ctx d, by rw [h.at, hf], path_iff.2 hm⟩, ?_⟩
  rcases store_foldl_from hf with h0 | ⟨e', he', hfr⟩
  · cases h0
  · obtain ⟨hr', ep⟩ := List.mem_filter.1 he'
    have ep := of_decide_eq_true ep
    have hfrom : e'.from d = e.from d := (sameConditions_of_path (lower := lower) ep).1
    refine ⟨e', hr', ep, hfrom, hfr, ?_, ?_⟩
    · rcases hfr.weight with hw | hw
      · rw [hw, weight_conditions, hfrom]; omega
      · rw [hw, hfrom]; exact Nat.le_refl _
    · intro hd
      generalize hL : (rules.filter fun x => x.path ctx d = e.path ctx d) = L at hf hd hin he'
      cases L with
      | nil => cases hin
      | cons x xs =>
        have hx : x ∈ rules.filter fun x => x.path ctx d = e.path ctx d := by rw [hL]; simp
        have hxp := of_decide_eq_true (List.mem_filter.1 hx).2
        rw [List.foldl_cons] at hf
        have hf := (store_default_keeps (d := d) (t := Resolved.new (x.from d) (x.to d) (x.weight d) x.stage (some x.origin)) hd).symm.trans hf
        cases hf
        rw [← path_length e ctx d, ← hxp, path_length]
        rfl

theorem filter_lines {α β : Type} {f : α → List β} {q : β → Bool} {r : α} : ∀ {l : List α}, l.Nodup → r ∈ l →
    (∀ x ∈ l, x ≠ r → (f x).filter q = []) → (l.flatMap f).filter q = (f r).filter q
  | [], _, h, _ => by cases h
  | x :: xs, hn, h, hx => by
    rw [List.flatMap_cons, List.filter_append]
    rw [List.nodup_cons] at hn
    rcases List.mem_cons.mp h with rfl | h
    · have : (xs.flatMap f).filter q = [] := by
        rw [List.filter_eq_nil_iff]
        intro b hb
        obtain ⟨y, hy, hb⟩ := List.mem_flatMap.mp hb
        have := hx y (by simp [hy]) (fun e => hn.1 (e ▸ hy))
        rw [List.filter_eq_nil_iff] at this
        exact this b hb
      rw [this, List.append_nil]
    · rw [hx x (by simp) (fun e => hn.1 (e ▸ h)), List.nil_append]
      exact filter_lines hn.2 h (fun y hy => hx y (List.mem_cons_of_mem _ hy))

/-- The entries of an operation in the dictionary of text (`false`) or in that of the `nocross` rules (`true`). -/
def opEntry (d : Direction) (nocross : Bool) (op : PrimOp) : Option TrieRule :=
  match op with
  | .char c dots prec origin =>
    if nocross = false ∧ d = .backward then some ⟨[c], dots, none, none, [], prec, .main, origin⟩ else none
  | .rule b r => if b = nocross then some r else none
  | _ => none

theorem trieRules_eq (d : Direction) (ops : List PrimOp) : trieRules d ops = ops.filterMap (opEntry d false) := by
  unfold trieRules
  refine congrArg (fun f => List.filterMap f ops) (funext fun op => ?_)
  cases op with
  | rule b r => cases b <;> rfl
  | char => simp [opEntry]
  | _ => rfl

theorem nocrossRules_eq (d : Direction) (ops : List PrimOp) : nocrossRules ops = ops.filterMap (opEntry d true) := by
  unfold nocrossRules
  refine congrArg (fun f => List.filterMap f ops) (funext fun op => ?_)
  cases op with
  | rule b r => cases b <;> rfl
  | _ => rfl

theorem suf_paths (ctx : CharClasses) (d : Direction) (p q : TrieRule) (hb : p.before = q.before) (hc : p.constraints = q.constraints)
    (hf : p.from d = q.from d) (h1 : p.after = some wordEdge) (h2 : q.after = some [.letter]) : p.path ctx d ≠ q.path ctx d := by
  intro h
  unfold TrieRule.path at h
  rw [hb, hc, hf, h1, h2] at h
  simp only [List.append_assoc, Option.map_some, Option.toList_some] at h
  have := List.append_cancel_left (List.append_cancel_left (List.append_cancel_left h))
  have := congrArg (fun l : List RTrans => l.head?) this
  simp [RClasses.resolve, wordEdge] at this

theorem insertion_entry {d : Direction} {nc : Bool} {r : Anchored} {chars dots : Text} {b a : Option (List CharClass)}
    {ws : List ClassConstraint} {p : TrieRule} (h : opEntry d nc (r.insertion chars dots b a ws) = some p) :
    p = ⟨chars, dots, b, a, ws, r.rule.prec, .main, r.origin⟩ := by
  unfold Anchored.insertion opEntry at h
  simp only at h
  split at h
  · cases h; rfl
  · cases h

/-- Of the entries of one line on one path, all but the first have no precedence. -/
theorem line_tail {ctx : TableCtx} {cl : CharClasses} {d : Direction} {nc : Bool} {L : List Char} {D : List Text} (r : Anchored)
    (path : List RTrans) :
    ∀ x ∈ (((r.firstOps ++ r.opsD ctx d L D).filterMap (opEntry d nc)).filter fun x => x.path cl d = path).tail,
      x.prec = .default := by
  have few : ∀ (l : List PrimOp), (∀ op ∈ l, ∀ x, opEntry d nc op = some x → x.prec = .default) →
      ∀ x ∈ ((l.filterMap (opEntry d nc)).filter fun x => x.path cl d = path).tail, x.prec = .default := by
    intro l hl x hx
    have hx := (List.mem_filter.mp (List.mem_of_mem_tail hx)).1
    obtain ⟨op, hop, e⟩ := List.mem_filterMap.mp hx
    exact hl op hop x e
  have one : ∀ (l : List PrimOp), l.length ≤ 1 →
      ∀ x ∈ ((l.filterMap (opEntry d nc)).filter fun x => x.path cl d = path).tail, x.prec = .default := by
    intro l hl x hx
    have h1 := List.length_filterMap_le (opEntry d nc) l
    have h2 := List.length_filter_le (fun x : TrieRule => decide (x.path cl d = path)) (l.filterMap (opEntry d nc))
    have h3 := List.length_pos_of_mem hx
    rw [List.length_tail] at h3
    omega
  obtain ⟨rule, id⟩ := r
  cases rule
  case text k chars b cons withs =>
    have e1 : Anchored.firstOps ⟨.text k chars b cons withs, id⟩ = [] := rfl
    rw [e1, List.nil_append]
    unfold Anchored.opsD
    simp only [Anchored.ops]
    split
    · exact one _ (by simp [okOf])
    · next dots _ =>
      simp only [okOf, Option.getD_some]
      cases k
      case partword | prfword =>
        refine few _ fun op hop x hx => ?_
        obtain ⟨e, -, rfl⟩ := List.mem_map.mp hop
        unfold Anchored.insertion opEntry at hx
        simp only at hx
        split at hx <;> cases hx
        rfl
      case sufword =>
        intro x hx
        exfalso
        have hne : ∀ e e' : Option (List CharClass) × Option (List CharClass), e ∈ TextKind.edges .sufword →
            e' ∈ TextKind.edges .sufword → ∀ (rr : Anchored) (ws : List ClassConstraint) (p q : TrieRule),
            opEntry d nc (rr.insertion chars dots e.1 e.2 ws) = some p → opEntry d nc (rr.insertion chars dots e'.1 e'.2 ws) = some q →
            p.path cl d = q.path cl d → e = e' := by
          intro e e' he he' rr ws p q hp hq hpq
          have hp := insertion_entry hp
          have hq := insertion_entry hq
          subst hp hq
          simp only [TextKind.edges, List.mem_cons, List.not_mem_nil, or_false] at he he'
          rcases he with rfl | rfl <;> rcases he' with rfl | rfl
          · rfl
          · exact absurd hpq (suf_paths _ _ _ _ rfl rfl (by cases d <;> rfl) rfl rfl)
          · exact absurd hpq.symm (suf_paths _ _ _ _ rfl rfl (by cases d <;> rfl) rfl rfl)
          · rfl
        generalize resolveWiths ctx.classes withs = ws at hx
        generalize (⟨.text .sufword chars b cons withs, id⟩ : Anchored) = rr at hx hne
        have h0 := hne (some wordEdge, some wordEdge) (some wordEdge, some [.letter]) (by simp [TextKind.edges]) (by simp [TextKind.edges]) rr ws
        simp only [TextKind.edges, List.map_cons, List.map_nil] at hx
        rw [List.filterMap_cons] at hx
        split at hx
        · have := List.length_pos_of_mem hx
          rw [List.length_tail] at this
          have h2 := List.length_filter_le (fun x : TrieRule => decide (x.path cl d = path))
            ([rr.insertion chars dots (some wordEdge) (some [.letter]) ws].filterMap (opEntry d nc))
          have h1 := List.length_filterMap_le (opEntry d nc) [rr.insertion chars dots (some wordEdge) (some [.letter]) ws]
          simp only [List.length_cons, List.length_nil] at h1
          omega
        · next p hp =>
          rw [List.filterMap_cons] at hx
          split at hx
          · rw [List.filterMap_nil] at hx
            have := List.length_pos_of_mem hx
            rw [List.length_tail] at this
            have h2 := List.length_filter_le (fun x : TrieRule => decide (x.path cl d = path)) [p]
            simp only [List.length_cons, List.length_nil] at h2
            omega
          · next q hq =>
            have hpq : p.path cl d ≠ q.path cl d := fun e => by
              have := h0 p q hp hq e
              simp [wordEdge] at this
            rw [List.filterMap_nil, List.filter_cons, List.filter_cons, List.filter_nil] at hx
            split at hx
            · next e1 =>
              split at hx
              · next e2 => exact hpq ((of_decide_eq_true e1).trans (of_decide_eq_true e2).symm)
              · cases hx
            · split at hx <;> cases hx
      all_goals exact one _ (Nat.le_refl _)
  case charDef k c cells cons =>
    refine few _ fun op hop x hx => ?_
    have dg : ∀ op ∈ Anchored.digitOps ⟨.charDef k c cells cons, id⟩ d D c cells, opEntry d nc op = none := by
      intro op hop
      unfold Anchored.digitOps at hop
      split at hop
      · split at hop
        · rw [List.mem_singleton.mp hop]; rfl
        · cases hop
      · cases hop
    have ch : ∀ o, opEntry d nc (.char c cells.toText (Rule.prec (.charDef k c cells cons)) o) = some x → x.prec = .default := by
      intro o h
      unfold opEntry at h
      simp only at h
      split at h <;> cases h
      rfl
    rcases List.mem_append.mp hop with h | h
    · cases k
      case hyphen => rw [List.mem_singleton.mp h] at hx; exact ch _ hx
      all_goals cases h
    · cases k
      case hyphen => cases h
      case digit =>
        rcases List.mem_append.mp h with h | h
        · split at h
          · cases h
          · rw [List.mem_singleton.mp h] at hx; exact ch _ hx
        · rw [dg op h] at hx; cases hx
      case litdigit =>
        rcases List.mem_cons.mp h with rfl | h
        · exact ch _ hx
        · rw [dg op h] at hx; cases hx
      all_goals (rw [List.mem_singleton.mp h] at hx; exact ch _ hx)
  case decpoint => exact one _ (Nat.le_refl _)
  case pass k test action cons => cases k <;> first | exact one _ (Nat.zero_le _) | exact one _ (Nat.le_refl _)
  all_goals
    refine one _ ?_
    rw [show Anchored.firstOps _ = [] from rfl, List.nil_append]
    unfold Anchored.opsD
    simp only [Anchored.ops]
    first
      | exact Nat.zero_le _
      | exact Nat.le_refl _
      | (unfold Anchored.signOps; split <;> simp [okOf])
      | (split <;> first | exact Nat.zero_le _ | exact Nat.le_refl _)
      | (simp only [okOf, Option.getD_some]; split <;> simp)

theorem line_count {ctx : TableCtx} {d : Direction} {L : List Char} {D : List Text} {r : Anchored} :
    ∀ op ∈ r.firstOps ++ r.opsD ctx d L D, OpCount ctx d r.rule op := by
  intro op hop
  rcases List.mem_append.mp hop with h | h
  · unfold Anchored.firstOps at h
    split at h
    · next e => rw [List.mem_singleton.mp h, e]; exact ⟨rfl, .decpoint⟩
    · next e => rw [List.mem_singleton.mp h, e]; exact ⟨rfl, .charDef⟩
    · cases h
  · unfold Anchored.opsD at h
    cases e : r.ops ctx d L D with
    | error _ => rw [e] at h; cases h
    | ok ops => rw [e] at h; exact ops_count e op h

theorem entry_count {ctx : TableCtx} {d : Direction} {nc : Bool} {r : Rule} {op : PrimOp} {x : TrieRule} (h : OpCount ctx d r op)
    (hx : opEntry d nc op = some x) : x.conditions = r.conditions ctx.classes ∧ r.IsFor ctx d (x.from d) := by
  cases op with
  | rule b e =>
    unfold opEntry at hx
    simp only at hx
    split at hx
    · cases hx; exact ⟨h.1, h.2.1⟩
    · cases hx
  | char c dots prec o =>
    unfold opEntry at hx
    simp only at hx
    split at hx
    · cases hx; exact ⟨h.1.symm, isFor_of h.2⟩
    · cases hx
  | _ => cases hx

/-- If a line is alone, the entries on the path of one of its entries are its own. -/
theorem alone_tail {ctx : TableCtx} {cl : CharClasses} {d : Direction} {rules : List Anchored} (hn : rules.Nodup)
    {r : Anchored} (hr : r ∈ rules) {nc : Bool} {e : TrieRule} (hc : e.conditions = r.rule.conditions ctx.classes)
    (ha : Alone ctx d rules r (e.from d)) :
    ∀ x ∈ (((tableOps ctx d rules).filterMap (opEntry d nc)).filter fun x => x.path cl d = e.path cl d).tail, x.prec = .default := by
  have other : ∀ (f : Anchored → List PrimOp), (∀ r', ∀ op ∈ f r', OpCount ctx d r'.rule op) → ∀ r' ∈ rules, r' ≠ r →
      ((f r').filterMap (opEntry d nc)).filter (fun x => decide (x.path cl d = e.path cl d)) = [] := by
    intro f hf r' hr' hne
    rw [List.filter_eq_nil_iff]
    intro x hx hp
    obtain ⟨op, hop, hx⟩ := List.mem_filterMap.mp hx
    obtain ⟨h1, h2⟩ := entry_count (hf r' op hop) hx
    have hp := of_decide_eq_true hp
    have hfrom : x.from d = e.from d := (sameConditions_of_path (lower := fun c => [c]) hp).1
    have hw : x.weight d = e.weight d := by rw [← path_length x cl d, hp, path_length]
    rw [weight_conditions, weight_conditions, hfrom] at hw
    refine ha r' hr' hne ?_ (hfrom ▸ h2)
    omega
  have hcut : ((tableOps ctx d rules).filterMap (opEntry d nc)).filter (fun x => decide (x.path cl d = e.path cl d)) =
      ((r.firstOps ++ r.opsD ctx d (litdigitChars d rules) (letterDotsOf d rules)).filterMap (opEntry d nc)).filter
        fun x => decide (x.path cl d = e.path cl d) := by
    unfold tableOps
    rw [List.filterMap_append, List.filter_append, List.filterMap_append, List.filter_append, List.filterMap_flatMap, List.filterMap_flatMap]
    rw [filter_lines hn hr (other _ fun r' op h => line_count (L := []) (D := []) op (List.mem_append.mpr (.inl h))),
      filter_lines hn hr (other _ fun r' op h => line_count op (List.mem_append.mpr (.inr h)))]
  rw [hcut]
  exact line_tail r _

/-! ## The rounds of a trace -/

variable {sys : Sys} {ctx : TableCtx} {d : Direction} {rules : List Anchored} {p : Primary} {cs : Case} {text : Text}
  {spans : List Span} {ts done rest : List Resolved} {tr : Resolved}

/-- The candidates of a round: the translations found in the dictionary, those of patterns, and what gating makes of them. -/
theorem gather_find {pc : PrimCtx} {ops : List PrimOp} {t : PrimaryTable} (h : PrimOk pc d ops t) {cons : Constraints} {s : PState}
    (hd : ∀ c ∈ s.delayed, FromPattern ops c) {cands delayed : List Resolved}
    (hg : gather t cs cons text s = .ok (cands, delayed)) : ∃ all, cands = selectCandidates t cs cons s all ∧
      (∀ c ∈ all, c ∈ t.trie.find cs.lower s.rest s.prev ∨ FromPattern ops c) ∧
      ∀ c ∈ t.trie.find cs.lower s.rest s.prev, c ∈ all := by
  unfold gather at hg
  simp only at hg
  split at hg
  · cases hg
  · next ms e1 =>
    split at hg
    · cases hg
    · next xs e2 =>
      simp only [Except.ok.injEq, Prod.mk.injEq] at hg
      obtain ⟨rfl, rfl⟩ := hg
      have o1 := patternsFind_origin h.match_origin e1
      have o2 := patternsFind_origin h.context_origin e2
      refine ⟨_, rfl, ?_, ?_⟩
      · intro c hc
        simp only [List.mem_append, List.mem_filter] at hc
        rcases hc with ((hc | hc) | hc) | ⟨((hc | hc) | hc) | hc, -⟩
        · exact .inl hc.1
        · exact .inr (o1 c hc.1)
        · exact .inr (o2 c hc.1)
        · exact .inr (hd c hc)
        · exact .inl hc.1
        · exact .inr (o1 c hc.1)
        · exact .inr (o2 c hc.1)
      · intro c hc
        simp only [List.mem_append, List.mem_filter]
        exact .inl (.inl (.inl ⟨hc, by simp [(trie_origin h hc).1]⟩))

/-- The weight of what is written in a round. -/
theorem round_weight {pc : PrimCtx} {ops : List PrimOp} {t : PrimaryTable} (h : PrimOk pc d ops t) {cons : Constraints}
    {ind : Nat → List Resolved} {s s' : PState} (hr : PReach t cs cons ind text s) (r : Round t cs cons ind text s s' tr) :
    FromPattern ops tr ∨
    (∃ op ∈ ops, tr.origin ≠ none ∧ op.origin? = tr.origin ∧
      ((∃ nc e, opEntry d nc op = some e ∧ tr.weight ≤ tr.input.length + e.conditions) ∨
        (∃ e, op = .comp6 e ∧ tr.weight ≤ tr.input.length + e.conditions) ∨
        ∃ a b o, op = .digitOverride a b o ∧ d = .backward ∧ tr.weight ≤ tr.input.length)) ∨
    ∃ cands delayed, gather t cs cons text s = .ok (cands, delayed) ∧ (∀ c ∈ cands, c.subset ∈ s.seen) ∧
      nocrossCandidate t cs cons s = none := by
  obtain ⟨cands, delayed, raw, hg, hch, hlen, hin, hw, ho⟩ := r.ex
  have entry : ∀ {e : TrieRule}, FromRule d e raw → tr.weight ≤ tr.input.length + e.conditions := by
    intro e hf
    rw [hw, hin, hf.input]
    rcases hf.weight with h | h
    · rw [h, weight_conditions]; exact Nat.le_refl _
    · rw [h]; omega
  cases hch with
  | nocross hn _ =>
    have hm := List.mem_filter.1 (heaviest_mem hn)
    obtain ⟨e, he, -, hfr⟩ := C13_found_rule_applies pc.trieClasses cs.lower d (nocrossRules ops) t.nocross h.nocross
      s.rest s.prev raw hm.1
    refine .inr (.inl ⟨_, mem_nocrossRules.1 he, by rw [ho, hfr.origin]; exact fun x => (nomatch x), by rw [ho, hfr.origin]; rfl,
      .inl ⟨true, e, by simp [opEntry], entry hfr⟩⟩)
  | rule hc _ _ _ =>
    obtain ⟨all, hsel, hall, -⟩ := gather_find h (hr.delayed_origin h) hg
    rw [hsel] at hc
    unfold selectCandidates at hc
    simp only at hc
    by_cases h6 : cons.useComp6 s.pos = true
    · rw [if_pos h6] at hc
      obtain ⟨e, he, -, hfr⟩ := C13_found_rule_applies pc.trieClasses cs.lower d (comp6Rules ops) t.comp6 h.comp6
        s.rest s.prev raw hc
      exact .inr (.inl ⟨_, mem_comp6Rules.1 he, by rw [ho, hfr.origin]; exact fun x => (nomatch x), by rw [ho, hfr.origin]; rfl,
        .inr (.inl ⟨e, rfl, entry hfr⟩)⟩)
    · rw [if_neg h6] at hc
      have hfin : raw ∈ preferDigit t cons s (all.filter (punctOk cons s.pos)) := by
        split at hc
        · exact (List.mem_filter.1 hc).1
        · exact hc
      have hord : raw ∈ all.filter (punctOk cons s.pos) → FromPattern ops (capitalise t cs cons s.pos raw) ∨
          ∃ op ∈ ops, (capitalise t cs cons s.pos raw).origin ≠ none ∧ op.origin? = (capitalise t cs cons s.pos raw).origin ∧
            ∃ nc e, opEntry d nc op = some e ∧ (capitalise t cs cons s.pos raw).weight ≤ (capitalise t cs cons s.pos raw).input.length + e.conditions := by
        intro hm
        rcases hall raw (List.mem_filter.1 hm).1 with hf | ⟨op, h1, h2, h3, h4⟩
        · obtain ⟨e, he, -, hfr⟩ := C13_found_rule_applies pc.trieClasses cs.lower d (trieRules d ops) t.trie h.trie
            s.rest s.prev raw hf
          rw [trieRules_eq] at he
          obtain ⟨op, hop, he⟩ := List.mem_filterMap.mp he
          refine .inr ⟨op, hop, by rw [ho, hfr.origin]; exact fun x => (nomatch x), ?_, false, e, he, entry hfr⟩
          rw [ho, hfr.origin]
          cases op with
          | rule b r => simp only [opEntry] at he; split at he <;> cases he; rfl
          | char => simp only [opEntry] at he; split at he <;> cases he; rfl
          | _ => cases he
        · exact .inl ⟨op, h1, h2, by rw [ho]; exact h3, by rw [ho]; exact h4⟩
      unfold preferDigit at hfin
      split at hfin
      · next hb =>
        simp only [Bool.and_eq_true, decide_eq_true_eq] at hb
        split at hfin
        · exact (hord hfin).imp_right fun ⟨op, a, b, c, d⟩ => Or.inl ⟨op, a, b, c, Or.inl d⟩
        · next c rest hrest =>
          split at hfin
          · exact (hord hfin).imp_right fun ⟨op, a, b, c, d⟩ => Or.inl ⟨op, a, b, c, Or.inl d⟩
          · next dg hdg =>
            rcases List.mem_append.1 hfin with hpd | hpd
            · exact (hord (List.mem_filter.1 hpd).1).imp_right fun ⟨op, a, b, c, d⟩ => Or.inl ⟨op, a, b, c, Or.inl d⟩
            · simp only [List.mem_singleton] at hpd
              subst hpd
              obtain ⟨o, org, rfl, hop⟩ := h.digits c raw (mem_assoc hdg)
              exact .inr (.inl ⟨_, hop, by rw [ho]; exact fun x => (nomatch x), by rw [ho]; rfl,
                .inr (.inr ⟨_, _, _, rfl, by rw [← h.dir]; exact hb.1, by rw [hw, hin]; exact Nat.le_refl _⟩)⟩)
      · exact (hord hfin).imp_right fun ⟨op, a, b, c, d⟩ => Or.inl ⟨op, a, b, c, Or.inl d⟩
  | plain hrest hall hnn hpl => exact .inr (.inr ⟨cands, delayed, hg, hall, hnn⟩)

/-- The items of a trace of the main stage, with the round in which they are written and the flags there. -/
theorem round_at (h : MainStage sys ctx d rules p) (ht : p.Traces cs text spans ts) (e : ts = done ++ tr :: rest) :
    (∃ r ∈ rules, ∃ dots, r.rule.sign? = some dots ∧ tr = indication dots.toText r.origin) ∨
    ∃ u u' cons ind, PReach p.table cs cons ind text u ∧ Round p.table cs cons ind text u u' tr ∧
      (∀ pos, ∀ x ∈ ind pos, x.input = []) ∧
      u.pos = coveredBy done ∧ u.rest = text.drop (coveredBy done) ∧ u.prev = (done.flatMap (·.input)).getLast? ∧
      (∀ pos, cons.useComp6 pos = true ↔ InComputerBraille ctx rules spans text pos) ∧
      (∀ pos, cons.dontContract pos = true ↔ InNumberOf ctx rules text pos) ∧
      (∀ pos, cons.hyphenationBreak pos = true ↔ d = .forward ∧
        ∃ hy, lastHyphenation sys rules = some hy ∧ BreakAfter hy (ctx.classes.members .letter) text pos) ∧
      (d = .backward → ∀ pos, cons.preferDigit pos = true ↔ DigitCell (backNumbers sys ctx rules) text pos) := by
  obtain ⟨en, cons, ind, h1, h2, h3, k, ek⟩ := ht
  have hsign : ∀ pos, ∀ x ∈ (ind[pos]?).getD [], SignOf rules x := fun pos x hx =>
    h.signs x (precompute_signs _ _ _ _ _ h3 pos x hx)
  have hind : Silent fun pos => (ind[pos]?).getD [] := by
    intro pos x hx
    obtain ⟨r, -, dots, -, rfl⟩ := hsign pos x hx
    exact ⟨rfl, rfl⟩
  have hb := h.built
  obtain ⟨l, e', hl⟩ := loop_done hb.ok (fun p x hx => (hind p x hx).1) .init ek
  simp only [PState.init, List.nil_append] at e' hl
  subst e'
  rcases hl done tr rest e with ⟨pos, hx⟩ | ⟨u, u', extra, g1, g2, g4, g5⟩
  · obtain ⟨r, hr, dots, g1, g2⟩ := hsign pos tr hx
    exact .inl ⟨r, hr, dots, g1, g2⟩
  · obtain ⟨htr, -⟩ := reach_tracked hb.ok hind g1
    have hflat : done.flatMap (·.input) = u.out.flatMap (·.input) := by
      rw [g4, List.flatMap_append, flatMap_nil_of (fun x hx => (hind _ x (g5 x hx)).1), List.append_nil]
    have hpos : u.pos = coveredBy done := by rw [coveredBy, hflat, htr.pos, coveredBy]
    refine .inr ⟨u, u', cons, _, g1, g2, fun pos x hx => (hind pos x hx).1, hpos, by rw [htr.rest, hpos], by rw [hflat, htr.prev],
      fun pos => (precompute_flags h2 pos).1.trans (covers_enriched h h1 pos), fun pos => ?_, fun pos => ?_, ?_⟩
    · refine (precompute_flags h2 pos).2.1.trans ?_
      have hn : p.constrainers.numeric = if ctx.classes.members .litdigit = [] then none else some (numChars ctx.classes rules) := by
        cases d with
        | forward => rw [C61_constraints_forward h]
        | backward => rw [C61_constraints_backward h]
      rw [hn]
      unfold InNumberOf
      constructor
      · rintro ⟨n, hn, h1, h2⟩
        split at hn
        · cases hn
        · injection hn with hn
          exact ⟨h1, hn ▸ h2⟩
      · rintro ⟨h1, h2⟩
        refine ⟨_, ?_, h1, h2⟩
        rw [if_neg]
        intro hemp
        obtain ⟨i, -, ⟨c, -, hc⟩, -⟩ := h2
        have : (numChars ctx.classes rules).digits = ctx.classes.members .litdigit := rfl
        rw [this, hemp] at hc
        cases hc
    · rw [(precompute_flags h2 pos).2.2.2.2 h.constrainers.2.2]
      cases d with
      | forward =>
        rw [C61_constraints_forward h]
        simp only [true_and]
        constructor
        · rintro ⟨x, hx, hbr⟩
          cases hl : lastHyphenation sys rules with
          | none => rw [hl] at hx; cases hx
          | some hy => rw [hl] at hx; cases hx; exact ⟨hy, rfl, hbr⟩
        · rintro ⟨hy, hl, hbr⟩
          rw [hl]
          exact ⟨_, rfl, hbr⟩
      | backward =>
        rw [C61_constraints_backward h]
        simp
    · intro hd pos
      subst hd
      exact (flags_backward h h2 pos).2.2

/-! ## C69 -/

/-- Nothing forbids using a line here for `n` characters.  A line marked `nocross` must not stand across a hyphenation point;
other lines are not used in computer braille, not in numbers unless for a single character, and in backward translation not
for a single cell that is read as a digit. -/
def Usable (sys : Sys) (ctx : TableCtx) (d : Direction) (rules : List Anchored) (spans : List Span) (text : Text) (pos : Nat)
    (r : Rule) (n : Nat) : Prop :=
  if r.isNocross = true then
    d = .forward → ∀ hy, lastHyphenation sys rules = some hy → ∀ q, pos ≤ q → q + 1 < pos + n →
      ¬ BreakAfter hy (ctx.classes.members .letter) text q
  else
    ¬ InComputerBraille ctx rules spans text pos ∧ (InNumberOf ctx rules text pos → n ≤ 1) ∧
    (d = .backward → n = 1 → ¬ DigitCell (backNumbers sys ctx rules) text pos)

/-- An entry that applies and may be used is outweighed or equalled by what is written. -/
theorem usable_weight (h : MainStage sys ctx d rules p) {cons : Constraints} {ind : Nat → List Resolved} {u u' : PState}
    (hreach : PReach p.table cs cons ind text u) (hround : Round p.table cs cons ind text u u' tr)
    (hind : ∀ pos, ∀ x ∈ ind pos, x.input = [])
    (f6 : ∀ pos, cons.useComp6 pos = true ↔ InComputerBraille ctx rules spans text pos)
    (fn : ∀ pos, cons.dontContract pos = true ↔ InNumberOf ctx rules text pos)
    (fh : ∀ pos, cons.hyphenationBreak pos = true ↔ d = .forward ∧
        ∃ hy, lastHyphenation sys rules = some hy ∧ BreakAfter hy (ctx.classes.members .letter) text pos)
    (fd : d = .backward → ∀ pos, cons.preferDigit pos = true ↔ DigitCell (backNumbers sys ctx rules) text pos)
    {r : Rule} {f : Resolved} (hf : if r.isNocross = true then f ∈ p.table.nocross.find cs.lower u.rest u.prev
      else f ∈ p.table.trie.find cs.lower u.rest u.prev) (hlen : f.length = f.input.length)
    (hu : Usable sys ctx d rules spans text u.pos r f.length) (hpunct : r.isNocross = false → punctOk cons u.pos f = true) :
    f.weight ≤ tr.weight ∧ (nocrossCandidate p.table cs cons u ≠ none ∨
      ∃ cands delayed, gather p.table cs cons text u = .ok (cands, delayed) ∧ ∃ c ∈ cands, c.subset ∉ u.seen) := by
  have hb := h.built
  obtain ⟨cands, delayed, raw, hg, hch, -, -, hw, -⟩ := hround.ex
  rw [hw]
  unfold Usable at hu
  by_cases hnc : r.isNocross = true
  · rw [if_pos hnc] at hf hu
    have hmem : f ∈ (p.table.nocross.find cs.lower u.rest u.prev).filter fun c =>
        !(List.range' u.pos (c.length - 1)).any cons.hyphenationBreak := by
      refine List.mem_filter.mpr ⟨hf, ?_⟩
      rw [Bool.not_eq_true', List.any_eq_false]
      intro q hq hbr
      rw [List.mem_range'_1] at hq
      obtain ⟨hd, hy, h1, h2⟩ := (fh q).mp hbr
      exact hu hd hy h1 q hq.1 (by omega) h2
    have hsome : nocrossCandidate p.table cs cons u ≠ none := by
      intro hn
      unfold nocrossCandidate at hn
      rw [heaviest_none] at hn
      rw [hn] at hmem
      cases hmem
    refine ⟨?_, .inl hsome⟩
    cases hch with
    | nocross hn _ => exact heaviest_max hn f hmem
    | rule _ _ _ hall =>
      cases hn : nocrossCandidate p.table cs cons u with
      | none => exact absurd hn hsome
      | some n => exact Nat.le_trans (heaviest_max hn f hmem) (Nat.le_of_lt (hall n hn))
    | plain _ _ hn _ => exact absurd hn hsome
  · rw [if_neg hnc] at hf hu
    obtain ⟨u6, un, ud⟩ := hu
    obtain ⟨all, hsel, -, hall⟩ := gather_find hb.ok (hreach.delayed_origin hb.ok) hg
    have hdir := hb.ok.dir
    have hfc : f ∈ cands := by
      rw [hsel]
      unfold selectCandidates
      have c6 : cons.useComp6 u.pos = false := by
        rw [← Bool.not_eq_true]; exact fun c => u6 ((f6 _).mp c)
      simp only [c6, Bool.false_eq_true, if_false]
      have h1 : f ∈ all.filter (punctOk cons u.pos) := List.mem_filter.mpr ⟨hall f hf, hpunct (by simpa using hnc)⟩
      have h2 : f ∈ preferDigit p.table cons u (all.filter (punctOk cons u.pos)) := by
        unfold preferDigit
        split
        · next hb' =>
          simp only [Bool.and_eq_true, decide_eq_true_eq] at hb'
          have hne : f.length ≠ 1 := fun e1 => ud (by rw [← hdir]; exact hb'.1) e1 ((fd (by rw [← hdir]; exact hb'.1) _).mp hb'.2)
          split
          · exact h1
          · split
            · exact h1
            · exact List.mem_append.mpr (.inl (List.mem_filter.mpr ⟨h1, by simpa using hne⟩))
        · exact h1
      split
      · next hdc => exact List.mem_filter.mpr ⟨h2, by simpa using un ((fn _).mp hdc)⟩
      · exact h2
    have hns : f.subset ∉ u.seen := by
      intro hs
      have h0 := hreach.seen_zero hb.ok hind _ hs
      have := dict_cand hb.ok.trie cs.lower [] u.rest u.prev hf
      simp only [Resolved.subset] at h0
      omega
    refine ⟨?_, .inr ⟨cands, delayed, hg, f, hfc, hns⟩⟩
    cases hch with
    | nocross _ hall => exact hall f hfc hns
    | rule _ _ hall _ => exact hall f hfc hns
    | plain _ hall _ _ => exact absurd (hall f hfc) hns

/-- **C69.** Whenever something other than a sign is written, no line of the table for a piece of text that could be used at
this place is passed over for a lighter one: what is written comes from a line (forward: not one for a single character) that
is a `match` or `context` line, or stands for at least as many characters as the other one has, when its own conditions are
counted; the conditions of the other line count as well, if no other line for the same text has as many. -/
theorem C69_no_longer_line (h : MainStage sys ctx d rules p) (ht : p.Traces cs text spans ts) (e : ts = done ++ tr :: rest)
    (r : Anchored) (hr : r ∈ rules) (htext : r.rule.IsText d) (read : Text)
    (hfit : r.rule.Fits ctx d cs (done.flatMap (·.input)).getLast? (text.drop (coveredBy done)) read)
    (hu : Usable sys ctx d rules spans text (coveredBy done) r.rule read.length)
    (hpunct : ∀ r' ∈ rules, r'.rule.IsPunct = true → ¬ r'.rule.IsFor ctx d read) :
    (∃ r' ∈ rules, ∃ dots, r'.rule.sign? = some dots ∧ tr = indication dots.toText r'.origin) ∨
    ∃ r' ∈ rules, tr.origin = some r'.origin ∧ (d = .forward → r'.rule.IsChar = false) ∧
      (r'.rule.IsPattern = true ∨
        read.length ≤ tr.input.length + r'.rule.conditions ctx.classes ∧
        (rules.Nodup → Alone ctx d rules r read →
          read.length + r.rule.conditions ctx.classes ≤ tr.input.length + r'.rule.conditions ctx.classes)) := by
  have hb := h.built
  have hops : ∀ r ∈ rules, ∃ ops, r.ops ctx d (litdigitChars d rules) (letterDotsOf d rules) = .ok ops := by
    obtain ⟨p₀, hc, -⟩ := h
    exact (compile_compiled hc).ops
  rcases round_at h ht e with hs | ⟨u, u', cons, ind, hreach, hround, hind, hpos, hrest, hprev, f6, fn, fh, fd⟩
  · exact .inl hs
  · right
    obtain ⟨chars, dots, written, consumed, tail, htail, hsp, hdir, hsay, hw⟩ := hfit
    have hcl : (ctx.prim d).trieClasses = ctx.neighbours d := by cases d <;> rfl
    obtain ⟨en, e1, e2, e3, e4, e5, e6, e7, e8⟩ := entry_exists hops hr htext hsay hw
    have hfrom : en.from d = read := by
      cases d with
      | forward => obtain ⟨rfl, -⟩ := hdir; exact e1
      | backward => obtain ⟨rfl, -⟩ := hdir; exact e2
    have hmat : RuleMatches (ctx.prim d).trieClasses cs.lower d en u.rest u.prev := by
      rw [hrest, hprev, hcl]
      exact ⟨consumed, tail, htail, hfrom ▸ hsp, e5.1, e5.2, e6, e7⟩
    -- the entry is found
    have hfound : ∃ f, (if r.rule.isNocross = true then f ∈ p.table.nocross.find cs.lower u.rest u.prev
        else f ∈ p.table.trie.find cs.lower u.rest u.prev) ∧ f.length = f.input.length ∧ f.length = read.length ∧
        read.length ≤ f.weight ∧ (r.rule.isNocross = false → punctOk cons u.pos f = true) ∧
        (rules.Nodup → Alone ctx d rules r read → read.length + r.rule.conditions ctx.classes ≤ f.weight) := by
      by_cases hnc : r.rule.isNocross = true
      · simp only [hnc, if_true] at e4 ⊢
        obtain ⟨f, hf, e', he', hp, hfr, hfrom', hle, hfull⟩ := found_entry hb.ok.nocross e4 hmat
        refine ⟨f, hf, by rw [hfrom'.length, hfrom'.input], by rw [hfrom'.length, hfr, hfrom], by rw [← hfrom]; exact hle,
          fun x => (nomatch x), ?_⟩
        intro hn ha
        have := hfull (by
          rw [nocrossRules_eq d]
          exact alone_tail hn hr e8 (by rw [hfrom]; exact ha))
        rw [this, weight_conditions, hfrom, e8]
        exact Nat.le_refl _
      · have hnc' : r.rule.isNocross = false := by simpa using hnc
        simp only [hnc', Bool.false_eq_true, if_false] at e4 ⊢
        obtain ⟨f, hf, e', he', hp, hfr, hfrom', hle, hfull⟩ := found_entry hb.ok.trie e4 hmat
        refine ⟨f, hf, by rw [hfrom'.length, hfrom'.input], by rw [hfrom'.length, hfr, hfrom], by rw [← hfrom]; exact hle,
          fun _ => ?_, ?_⟩
        · rw [trieRules_eq] at he'
          obtain ⟨op, hop, hx⟩ := List.mem_filterMap.mp he'
          obtain ⟨r', hr', ho', hcount⟩ := tableOps_count op hop
          have hfor := (entry_count hcount hx).2
          rw [hfr, hfrom] at hfor
          have hoo : e'.origin = r'.origin := by
            cases op with
            | rule b x => simp only [opEntry] at hx; split at hx <;> cases hx; exact ho' _ rfl
            | char => simp only [opEntry] at hx; split at hx <;> cases hx; exact ho' _ rfl
            | _ => cases hx
          unfold punctOk
          rw [hfrom'.origin, hoo]
          have hnp : r'.rule.IsPunct = false := by
            rw [← Bool.not_eq_true]
            exact fun c => hpunct r' hr' c hfor
          obtain ⟨rule, id⟩ := r'
          unfold Anchored.origin
          cases rule <;> first | rfl | cases hnp
        · intro hn ha
          have := hfull (by
            rw [trieRules_eq]
            exact alone_tail hn hr e8 (by rw [hfrom]; exact ha))
          rw [this, weight_conditions, hfrom, e8]
          exact Nat.le_refl _
    obtain ⟨f, hf, hl1, hl2, hle, hpk, hfull⟩ := hfound
    obtain ⟨hwt, hnp⟩ := usable_weight (r := r.rule) h hreach hround hind f6 fn fh fd hf hl1 (by rw [hpos, hl2]; exact hu) hpk
    rcases round_weight hb.ok hreach hround with ⟨op, hop, hpat, hne, ho⟩ | ⟨op, hop, hne, ho, hcase⟩ | ⟨cands, delayed, hg, hall, hnn⟩
    · obtain ⟨r', hr', hof⟩ := tableOps_of (cl := ctx.neighbours d) op hop
      refine ⟨r', hr', ?_⟩
      cases op with
      | matchRule pre chars post to o =>
        obtain ⟨h1, b, cons', h2, -⟩ := hof
        refine ⟨by rw [← ho, ← h1]; rfl, fun _ => by rw [h2]; rfl, .inl (by rw [h2]; rfl)⟩
      | context test action o =>
        obtain ⟨h1, cons', h2⟩ := hof
        refine ⟨by rw [← ho, ← h1]; rfl, fun _ => by rw [h2]; rfl, .inl (by rw [h2]; rfl)⟩
      | _ => exact hpat.elim
    · obtain ⟨r', hr', ho', hcount⟩ := tableOps_count op hop
      have horig : tr.origin = some r'.origin := by
        rw [← ho]
        cases hoo : op.origin? with
        | none => rw [hoo] at ho; exact absurd ho.symm hne
        | some o => rw [ho' o hoo]
      refine ⟨r', hr', horig, ?_⟩
      have fin : ∀ n, n = r'.rule.conditions ctx.classes → tr.weight ≤ tr.input.length + n →
          (r'.rule.IsPattern = true ∨ read.length ≤ tr.input.length + r'.rule.conditions ctx.classes ∧
            (rules.Nodup → Alone ctx d rules r read →
              read.length + r.rule.conditions ctx.classes ≤ tr.input.length + r'.rule.conditions ctx.classes)) := by
        rintro n rfl hn
        refine .inr ⟨by omega, fun a b => ?_⟩
        have := hfull a b
        omega
      rcases hcase with ⟨nc, en', hx, hwn⟩ | ⟨en', rfl, hwn⟩ | ⟨a, b, o, rfl, hd, hwn⟩
      · refine ⟨fun hd => ?_, fin _ (entry_count hcount hx).1 hwn⟩
        cases op with
        | rule b e => exact hcount.2.2
        | char => simp only [opEntry, hd, reduceCtorEq, and_false, if_false] at hx
        | _ => cases hx
      · exact ⟨fun _ => hcount.2.2, fin _ hcount.1 hwn⟩
      · refine ⟨fun hf => ?_, fin 0 hcount.symm (by omega)⟩
        rw [hf] at hd
        cases hd
    · rcases hnp with hnp | ⟨c', dl', hg', c, hc, hns⟩
      · exact absurd hnn hnp
      · rw [hg] at hg'
        cases hg'
        exact absurd (hall c hc) hns

/-- The lines of a table are numbered, so no two are the same. -/
theorem anchor_nodup (rules : List (Rule × Loc)) (d : Direction) : (anchor rules).Nodup ∧ (allowedRules (anchor rules) d).Nodup := by
  have h : (anchor rules).Nodup := by
    unfold anchor
    have : ∀ (l : List (Rule × Loc)) (n : Nat), ((l.zipIdx n).map fun r => (⟨r.1.1, r.2⟩ : Anchored)).Nodup := by
      intro l
      induction l with
      | nil => intro n; exact List.nodup_nil
      | cons x xs ih =>
        intro n
        rw [List.zipIdx_cons, List.map_cons, List.nodup_cons]
        refine ⟨?_, ih _⟩
        intro hm
        obtain ⟨⟨y, k⟩, hy, e⟩ := List.mem_map.mp hm
        rw [List.mk_mem_zipIdx_iff_le_and_getElem?_sub] at hy
        have := congrArg Anchored.id e
        simp only at this
        omega
    exact this rules 0
  exact ⟨h, h.filter _⟩

/-- **C69**, where a line for a piece of text can be used, the text is not spelled out character by character: what is written
comes neither from a character definition nor from the treatment of characters without definition. -/
theorem C69_not_spelled_out (h : MainStage sys ctx .forward rules p) (hids : DistinctIds rules) (ht : p.Traces cs text spans ts)
    (e : ts = done ++ tr :: rest) (r : Anchored) (hr : r ∈ rules) (htext : r.rule.IsText .forward) (read : Text)
    (hfit : r.rule.Fits ctx .forward cs (done.flatMap (·.input)).getLast? (text.drop (coveredBy done)) read)
    (hu : Usable sys ctx .forward rules spans text (coveredBy done) r.rule read.length)
    (hpunct : ∀ r' ∈ rules, r'.rule.IsPunct = true → ¬ r'.rule.IsFor ctx .forward read) :
    tr.origin ≠ none ∧ ∀ r' ∈ rules, tr.origin = some r'.origin → r'.rule.IsChar = false := by
  rcases C69_no_longer_line h ht e r hr htext read hfit hu hpunct with ⟨r', hr', dots, hs, rfl⟩ | ⟨r', hr', ho, hc, -⟩
  · refine ⟨fun x => (nomatch x), fun r'' hr'' ho => ?_⟩
    have := hids.origin hr'' hr' ho
    subst this
    cases hk : r'.rule <;> first | rfl | (rw [hk] at hs; cases hs)
  · refine ⟨by rw [ho]; exact fun x => (nomatch x), fun r'' hr'' ho' => ?_⟩
    rw [ho] at ho'
    have := hids.origin hr'' hr' ho'
    rw [← this]
    exact hc rfl

/-- **C69**, longest match: in a table without `match` and `context` lines, what an unconditional line writes stands for at
least as many characters as any line for a piece of text that could be used there has. -/
theorem C69_longest_match (h : MainStage sys ctx d rules p) (hids : DistinctIds rules) (ht : p.Traces cs text spans ts)
    (e : ts = done ++ tr :: rest) (hnopat : ∀ r ∈ rules, r.rule.IsPattern = false)
    (r : Anchored) (hr : r ∈ rules) (htext : r.rule.IsText d) (read : Text)
    (hfit : r.rule.Fits ctx d cs (done.flatMap (·.input)).getLast? (text.drop (coveredBy done)) read)
    (hu : Usable sys ctx d rules spans text (coveredBy done) r.rule read.length)
    (hpunct : ∀ r' ∈ rules, r'.rule.IsPunct = true → ¬ r'.rule.IsFor ctx d read)
    (r' : Anchored) (hr' : r' ∈ rules) (ho : tr.origin = some r'.origin) (hn : r'.rule.sign? = none)
    (h0 : r'.rule.conditions ctx.classes = 0) : read.length ≤ tr.input.length := by
  rcases C69_no_longer_line h ht e r hr htext read hfit hu hpunct with ⟨r'', hr'', dots, hs, rfl⟩ | ⟨r'', hr'', ho'', -, hc⟩
  · have := hids.origin hr' hr'' ho
    rw [this, hn] at hs
    cases hs
  · rw [ho] at ho''
    have := hids.origin hr' hr'' (by rw [ho''])
    subst this
    rcases hc with hc | ⟨hc, -⟩
    · rw [hnopat _ hr''] at hc; cases hc
    · omega

/-- **C69** for translators. -/
theorem C69_translation (sys : Sys) (rules : List Anchored) (d : Direction) (steps : List Transform)
    (h : Pipeline.Compiles sys rules d steps) (cs : Case) (spans : List Span) (input output : Text)
    (ht : Pipeline.Translates cs spans input steps output) : ∃ before p after read ts, steps = before ++ [.primary p] ++ after ∧
      Pipeline.Translates cs [] input before read ∧ p.Traces cs read spans ts ∧ Pipeline.Translates cs [] (outputOf ts) after output ∧
      ∀ done tr rest, ts = done ++ tr :: rest → ∀ r ∈ allowedRules rules d, r.rule.IsText d → ∀ chars,
        r.rule.Fits (TableCtx.compile sys.alpha (allowedRules rules d)) d cs (done.flatMap (·.input)).getLast?
          (read.drop (coveredBy done)) chars →
        Usable sys (TableCtx.compile sys.alpha (allowedRules rules d)) d (allowedRules rules d) spans read (coveredBy done) r.rule
          chars.length →
        (∀ r' ∈ allowedRules rules d, r'.rule.IsPunct = true →
          ¬ r'.rule.IsFor (TableCtx.compile sys.alpha (allowedRules rules d)) d chars) →
        (∃ r' ∈ allowedRules rules d, ∃ dots, r'.rule.sign? = some dots ∧ tr = indication dots.toText r'.origin) ∨
        ∃ r' ∈ allowedRules rules d, tr.origin = some r'.origin ∧ (d = .forward → r'.rule.IsChar = false) ∧
          (r'.rule.IsPattern = true ∨
            chars.length ≤ tr.input.length + r'.rule.conditions (TableCtx.compile sys.alpha (allowedRules rules d)).classes ∧
            ((allowedRules rules d).Nodup →
              Alone (TableCtx.compile sys.alpha (allowedRules rules d)) d (allowedRules rules d) r chars →
              chars.length + r.rule.conditions (TableCtx.compile sys.alpha (allowedRules rules d)).classes ≤
                tr.input.length + r'.rule.conditions (TableCtx.compile sys.alpha (allowedRules rules d)).classes)) := by
  obtain ⟨before, p, after, e, hp, -, -, hk⟩ := C44_spans_main_stage sys rules d steps h
  obtain ⟨read, ts, h1, h2, h3⟩ := (hk cs spans input output).mp ht
  exact ⟨before, p, after, read, ts, e, h1, h2, h3, fun done tr rest e r hr ht chars hf hu hpu =>
    C69_no_longer_line hp h2 e r hr ht chars hf hu hpu⟩

/-! ## Examples -/

def longestTable : String :=
  "space \\s 0\npunctuation ( 12356\nlowercase a 1\nlowercase b 12\nlowercase c 14\nalways ab 3\nalways abc 34\nword ab 345\n"

/-- Non-vacuity of C69: of the lines for `ab` and `abc` the longer one is used, and the one for words where it may be used. -/
example : SourceTranslates demoSys asciiCase longestTable.toList .forward [] "abca ab aba".toList "⠌⠁⠀⠜⠀⠄⠁".toList :=
  runSource_sound (fuel := 40) (by decide +kernel)

def longestRules : List Anchored := anchor ((parseTable longestTable.toList none).toOption.getD [])

def longestCtx : TableCtx := TableCtx.compile demoSys.alpha longestRules

/-- The hypotheses of C69 hold for the line `word ab` at the beginning of `ab a`. -/
example : (Rule.text .word "ab".toList (.explicit [[.d3, .d4, .d5]]) ⟨false, false, false⟩ []).Fits longestCtx .forward asciiCase none
    "ab a".toList "ab".toList :=
  ⟨"ab".toList, "⠜".toList, "⠜".toList, "ab".toList, " a".toList, by decide, by
    exact .cons (by decide) (.cons (by decide) .nil), ⟨rfl, rfl⟩,
    .text (.explicit _) ⟨trivial, .inl (by decide +kernel)⟩, fun w hw => (nomatch hw)⟩

/-- The conditions of the line count, because no other line for `ab` has as many. -/
example : ∀ r ∈ longestRules, r.id = 7 → Alone longestCtx .forward longestRules r "ab".toList := by
  have key : longestRules.all (fun r => r.id == 7 || r.rule.conditions longestCtx.classes != 2) = true := by decide +kernel
  have two : longestRules.all (fun r => r.id != 7 || r.rule.conditions longestCtx.classes == 2) = true := by decide +kernel
  have ids : longestRules.map (·.id) = [0, 1, 2, 3, 4, 5, 6, 7] := by decide +kernel
  intro r hr h7 r' hr' hne hc
  exfalso
  have h2 := List.all_eq_true.mp two r hr
  have h1 := List.all_eq_true.mp key r' hr'
  simp only [h7, bne_self_eq_false, Bool.false_or, beq_iff_eq] at h2
  rw [h2] at hc
  simp only [hc, bne_self_eq_false, Bool.or_false, beq_iff_eq] at h1
  have hd : DistinctIds longestRules := anchor_distinct _
  exact hne (hd r' hr' r hr (h1.trans h7.symm))

/-- Repeating a line of a table changes the translation: `word ab` outweighs `always ab\s`, but not if it is there twice,
because the second line of the same text and conditions is stored with the number of its characters only. -/
theorem C69_repeated_line_wrong :
    SourceTranslates demoSys asciiCase (longestTable ++ "always ab\\s 56\n").toList .forward [] "ab a".toList "⠜⠀⠁".toList ∧
    SourceTranslates demoSys asciiCase (longestTable ++ "always ab\\s 56\nword ab 345\n").toList .forward [] "ab a".toList "⠰⠁".toList :=
  ⟨runSource_sound (fuel := 40) (by decide +kernel), runSource_sound (fuel := 40) (by decide +kernel)⟩

/-- A `prepunc` line hides a later line for the same text even where it may not be used itself: the bracket is spelled with the
cell of its definition, although the `largesign` line fits. -/
theorem C69_prepunc_hides_wrong :
    SourceTranslates demoSys asciiCase (longestTable ++ "largesign ( 46\n").toList .forward [] "a( a".toList "⠁⠨⠀⠁".toList ∧
    SourceTranslates demoSys asciiCase (longestTable ++ "prepunc ( 45\nlargesign ( 46\n").toList .forward [] "a( a".toList "⠁⠷⠀⠁".toList :=
  ⟨runSource_sound (fuel := 40) (by decide +kernel), runSource_sound (fuel := 40) (by decide +kernel)⟩

end Louis
