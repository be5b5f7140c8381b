import Verif.Props.ExplainedOps
import Verif.Props.SpansText

/-!
# C56, C47: everything the main stage writes is explained by a line of the table
-/

namespace Louis

open Regexp (Fault Compiled findAnchored utf8Len utf8Len_append)

/-- The piece `tr`, written after the pieces `done`, is explained by the rules of the table. -/
inductive Explained (ctx : TableCtx) (d : Direction) (cs : Case) (rules : List Anchored) (input : Text) (done : List Resolved)
    (tr : Resolved) : Prop where
  /-- it is a sign the table defines (number sign, capital sign, emphasis sign, …) -/
  | sign (r : Anchored) (dots : Cells) : r ∈ rules → r.rule.sign? = some dots → tr = indication dots.toText r.origin →
    Explained ctx d cs rules input done tr
  /-- it is what a rule says for the text here, where the conditions of the rule on the neighbouring characters hold -/
  | rule (r : Anchored) (chars dots written consumed tail : Text) : r ∈ rules → tr.origin = some r.origin →
    input.drop (coveredBy done) = consumed ++ tail → consumed = tr.input ∨ Spells cs.lower consumed tr.input →
    r.rule.Says (ctx.neighbours d) ctx.defs (done.flatMap (·.input)).getLast? tail.head? chars dots →
    (∀ w ∈ r.rule.withs, ctx.classes.get (CharClass.ofName w.name) ≠ none →
      w.Here (ctx.neighbours d) (done.flatMap (·.input)).getLast? tail.head?) →
    Reading.dir d chars dots tr.input written → MaybeCapital cs d written tr.output →
    Explained ctx d cs rules input done tr
  /-- in backward translation: it is the cells of a sign, for which nothing is written -/
  | backSign (r : Anchored) (dots : Cells) (consumed tail : Text) : d = .backward → r ∈ rules → r.rule.backSign? = some dots →
    tr.origin = some r.origin → input.drop (coveredBy done) = consumed ++ tail → Spells cs.lower consumed tr.input →
    tr.input = dots.toText → MaybeCapital cs d [] tr.output → Explained ctx d cs rules input done tr
  /-- it is what a `match` rule says for its characters here, between the patterns of the rule -/
  | matched (r : Anchored) (pre chars post b cons dots) : r ∈ rules → tr.origin = some r.origin →
    r.rule = .matchRule pre chars post b cons → BrailleOf ctx.defs chars b dots → tr.input = chars → MaybeCapital cs d dots tr.output →
    (PAllSupported pre → PAllSupported post → MatchHere ctx.classes cs.lower input done pre chars post (coveredBy done)) →
    Explained ctx d cs rules input done tr
  /-- it is what a `context` rule writes for the bracketed text, where its test holds -/
  | context (r : Anchored) (test action cons) : r ∈ rules → tr.origin = some r.origin → r.rule = .pass .context test action cons →
    (TestsWritten test → NoStep action → (∃ written, Writes ctx.swaps tr.input action written ∧ MaybeCapital cs d written tr.output) ∧
      Asks action tr.effects) →
    (ContextSupported test action → ContextHere ctx.classes input done test tr.input (coveredBy done) ∧
      (∃ written, Writes ctx.swaps tr.input action written ∧ MaybeCapital cs d written tr.output) ∧ Asks action tr.effects) →
    Explained ctx d cs rules input done tr
  /-- it is what the table says for characters without definition -/
  | undefined (c : Char) (tail : Text) : tr.origin = none → input.drop (coveredBy done) = c :: tail → tr.input = [c] →
    (d = .forward → ∀ r ∈ rules, (∀ dots, ¬ r.rule.Defines c dots) ∧
      ∀ name b, r.rule = .base name c b → ctx.defs.get b = none) →
    ((∃ a r b dots, rules = a ++ r :: b ∧ r.rule = .undefined dots ∧ tr.output = dots.toText ∧
        ∀ r' ∈ b, ∀ dots', r'.rule ≠ .undefined dots') ∨
      ((∀ r' ∈ rules, ∀ dots', r'.rule ≠ .undefined dots') ∧ escapeCells ctx.defs (escapeChar c) = .ok tr.output)) →
    Explained ctx d cs rules input done tr

theorem maybeCapital_capitalise (t : PrimaryTable) (cs : Case) (cons : Constraints) (p : Nat) (r : Resolved) :
    MaybeCapital cs t.direction r.output (capitalise t cs cons p r).output := by
  unfold capitalise MaybeCapital
  split
  · next h =>
    simp only [Bool.and_eq_true, decide_eq_true_eq] at h
    exact .inr ⟨h.1, .inl rfl⟩
  · split
    · next h =>
      simp only [Bool.and_eq_true, decide_eq_true_eq] at h
      exact .inr ⟨h.1, .inr rfl⟩
    · exact .inl rfl

theorem RuleMatches.parts {cl : CharClasses} {lower : Char → List Char} {d : Direction} {e : TrieRule} {rest : Text}
    {prev : Option Char} (h : RuleMatches cl lower d e rest prev) : ∃ consumed tail, rest = consumed ++ tail ∧
      Spells lower consumed (e.from d) ∧ Bounds cl e.before e.after prev tail.head? ∧
      (∀ k, ClassConstraint.start k ∈ e.constraints → NeighbourIn cl [k] prev) ∧
      ∀ k, ClassConstraint.stop k ∈ e.constraints → NeighbourIn cl [k] tail.head? := by
  obtain ⟨consumed, tail, h1, h2, h3, h4, h5, h6⟩ := h
  exact ⟨consumed, tail, h1, h2, ⟨h3, h4⟩, h5, h6⟩

theorem from_dir (d : Direction) (e : TrieRule) : Reading.dir d e.chars e.dots (e.from d) (e.to d) := by
  cases d <;> exact ⟨rfl, rfl⟩

/-! ## Characters with a definition -/

theorem defines_op {ctx : TableCtx} {rules : List Anchored} {r : Anchored} (hr : r ∈ rules) {c : Char} :
    (∃ dots, r.rule.Defines c dots) ∨ (∃ name b, r.rule = .base name c b ∧ ctx.defs.get b ≠ none) →
    ∃ dots prec o, PrimOp.char c dots prec o ∈ tableOps ctx .forward rules := by
  have first : ∀ op, op ∈ r.firstOps → op ∈ tableOps ctx .forward rules := fun op h =>
    List.mem_append_left _ (List.mem_flatMap.mpr ⟨r, hr, h⟩)
  have second : ∀ r' ∈ rules, ∀ op ops, r'.ops ctx .forward (litdigitChars .forward rules) (letterDotsOf .forward rules) = .ok ops →
      op ∈ ops → op ∈ tableOps ctx .forward rules := fun r' hr' op ops h hop =>
    List.mem_append_right _ (List.mem_flatMap.mpr ⟨r', hr', by unfold Anchored.opsD; rw [h]; exact hop⟩)
  rintro (⟨dots, ⟨k, cells, cons, e, -⟩ | ⟨cells, e, -⟩⟩ | ⟨name, b, e, hb⟩)
  · by_cases hk : k = .hyphen
    · subst hk
      exact ⟨_, _, _, first _ (by unfold Anchored.firstOps; rw [e]; exact List.mem_singleton.mpr rfl)⟩
    · by_cases hd : k = .digit
      · subst hd
        by_cases hl : (litdigitChars .forward rules).contains c = true
        · -- a litdigit rule defines it
          simp only [List.contains_iff_mem] at hl
          unfold litdigitChars at hl
          obtain ⟨r', hr', e'⟩ := List.mem_filterMap.mp hl
          split at e'
          · next c' cells' cons' er' =>
            injection e' with e'
            subst e'
            refine ⟨cells'.toText, _, _, second r' hr' _ _ (by unfold Anchored.ops; rw [er']) (List.mem_cons_self ..)⟩
          · cases e'
        · refine ⟨cells.toText, r.rule.prec, r.origin, second r hr _ _ (by unfold Anchored.ops; rw [e]) ?_⟩
          rw [if_neg hl, e]
          exact List.mem_append_left _ (List.mem_singleton.mpr rfl)
      · cases k
        case hyphen => exact absurd rfl hk
        case digit => exact absurd rfl hd
        case litdigit =>
          exact ⟨cells.toText, _, _, second r hr _ _ (by unfold Anchored.ops; rw [e]) (List.mem_cons_self ..)⟩
        all_goals
          exact ⟨cells.toText, _, _, second r hr _ _ (by unfold Anchored.ops; rw [e]) (List.mem_singleton.mpr rfl)⟩
  · exact ⟨_, _, _, first _ (by unfold Anchored.firstOps; rw [e]; exact List.mem_singleton.mpr rfl)⟩
  · cases hg : ctx.defs.get b with
    | none => exact absurd hg hb
    | some dots =>
      refine ⟨dots, (Rule.base name c b).prec, r.origin, second r hr _ [_] (by unfold Anchored.ops; rw [e]; simp only [hg]) (List.mem_singleton.mpr rfl)⟩

/-! ## The last `undefined` rule -/

theorem undefined_ops {ctx : TableCtx} {d : Direction} {rules : List Anchored} :
    (tableOps ctx d rules).filterMap (fun | .undefined dots => some dots | _ => none) =
      rules.filterMap fun r => match r.rule with | .undefined dots => some dots.toText | _ => none := by
  have key : ∀ r : Anchored, ∀ L D, (r.opsD ctx d L D).filterMap (fun | .undefined dots => some dots | _ => none) =
      (match r.rule with | .undefined dots => some dots.toText | _ => none).toList := by
    intro r L D
    cases e : r.ops ctx d L D with
    | error err =>
      unfold Anchored.opsD
      rw [e]
      obtain ⟨rule, id⟩ := r
      cases rule <;> first | rfl | cases e
    | ok ops =>
      unfold Anchored.opsD
      rw [e]
      have ho := ops_of (cl := []) e
      obtain ⟨rule, id⟩ := r
      cases rule
      case undefined dots => cases e; rfl
      all_goals
        rw [show (okOf (Except.ok ops : Except CompileErr _)).getD [] = ops from rfl]
        simp only [Option.toList_none, List.filterMap_eq_nil_iff]
        intro op hop
        have := ho op hop
        cases op
        case undefined dots => obtain ⟨cells, h, -⟩ := this; cases h
        all_goals rfl
  have hfirst : (rules.flatMap (·.firstOps)).filterMap (fun | .undefined dots => some dots | _ => none) = ([] : List Text) := by
    rw [List.filterMap_eq_nil_iff]
    intro op hop
    obtain ⟨r, -, h⟩ := List.mem_flatMap.mp hop
    unfold Anchored.firstOps at h
    split at h
    · rw [List.mem_singleton.mp h]
    · rw [List.mem_singleton.mp h]
    · cases h
  unfold tableOps
  rw [List.filterMap_append, hfirst, List.nil_append]
  generalize litdigitChars d rules = L
  generalize letterDotsOf d rules = D
  induction rules with
  | nil => rfl
  | cons r rs ih =>
    rw [List.flatMap_cons, List.filterMap_append, key r L D]
    rw [ih (by
      rw [List.filterMap_eq_nil_iff] at hfirst ⊢
      intro op hop
      exact hfirst op (by rw [List.flatMap_cons]; exact List.mem_append_right _ hop))]
    rw [List.filterMap_cons]
    split <;> simp_all

theorem last_undefined {rules : List Anchored} :
    (∃ a r b dots, rules = a ++ r :: b ∧ r.rule = .undefined dots ∧
      (rules.filterMap fun r => match r.rule with | .undefined dots => some dots.toText | _ => none).getLast? = some dots.toText ∧
      ∀ r' ∈ b, ∀ dots', r'.rule ≠ .undefined dots') ∨
    ((∀ r' ∈ rules, ∀ dots', r'.rule ≠ .undefined dots') ∧
      (rules.filterMap fun r => match r.rule with | .undefined dots => some dots.toText | _ => none) = []) := by
  generalize hn : rules.length = n
  induction n generalizing rules with
  | zero =>
    rw [List.length_eq_zero_iff.mp hn]
    exact .inr ⟨by simp, rfl⟩
  | succ n ih =>
    rcases List.eq_nil_or_concat rules with rfl | ⟨u, y, rfl⟩
    · simp at hn
    rw [List.concat_eq_append] at *
    rw [List.length_append] at hn
    by_cases hy : ∃ dots, y.rule = .undefined dots
    · obtain ⟨dots, hy⟩ := hy
      exact .inl ⟨u, y, [], dots, rfl, hy, by simp [List.filterMap_append, hy], by simp⟩
    · have hy' : (match y.rule with | .undefined dots => some dots.toText | _ => none) = none := by
        split
        · next dots e => exact absurd ⟨dots, e⟩ hy
        · rfl
      have hf : ((u ++ [y]).filterMap fun r => match r.rule with | .undefined dots => some dots.toText | _ => none) =
          u.filterMap fun r => match r.rule with | .undefined dots => some dots.toText | _ => none := by
        rw [List.filterMap_append, List.filterMap_cons]
        simp only [hy']
        simp
      rw [hf]
      rcases ih (rules := u) (by simpa using hn) with ⟨a, r, b, dots, rfl, h1, h2, h3⟩ | ⟨h1, h2⟩
      · refine .inl ⟨a, r, b ++ [y], dots, by simp, h1, h2, ?_⟩
        intro r' hr' dots'
        rcases List.mem_append.mp hr' with hr' | hr'
        · exact h3 r' hr' dots'
        · rw [List.mem_singleton.mp hr']; exact fun e => hy ⟨dots', e⟩
      · refine .inr ⟨?_, h2⟩
        intro r' hr' dots'
        rcases List.mem_append.mp hr' with hr' | hr'
        · exact h1 r' hr' dots'
        · rw [List.mem_singleton.mp hr']; exact fun e => hy ⟨dots', e⟩


/-! ## Every round -/

section
variable {ctx : TableCtx} {d : Direction} {rules : List Anchored} {t : PrimaryTable} {cs : Case} {cons : Constraints}
  {ind : Nat → List Resolved} {input : Text}

theorem prim_neighbours (ctx : TableCtx) (d : Direction) : (ctx.prim d).trieClasses = ctx.neighbours d := by
  cases d <;> rfl

theorem entry_explained {r : Anchored} (hr : r ∈ rules) {e : TrieRule} (ho : e.origin = r.origin)
    (he : EntryOf ctx (ctx.neighbours d) d r.rule e) {s : PState} {done : List Resolved}
    (hdone : coveredBy done = s.pos) (hprev : s.prev = (done.flatMap (·.input)).getLast?) (hrest : s.rest = input.drop s.pos)
    (hm : RuleMatches (ctx.neighbours d) cs.lower d e s.rest s.prev) {raw tr : Resolved} (hf : FromRule d e raw)
    (h1 : tr.input = raw.input) (h2 : tr.origin = raw.origin) (h3 : MaybeCapital cs d raw.output tr.output) :
    Explained ctx d cs rules input done tr := by
  obtain ⟨consumed, tail, e1, e2, e3, e4, e5⟩ := hm.parts
  rw [hrest, ← hdone] at e1
  rw [hprev] at e3 e4
  rcases he with ⟨hd, dots, g1, g2, g3⟩ | he
  · refine .backSign r dots consumed tail hd hr g1 (by rw [h2, hf.origin, ho]) e1 (by rw [h1, hf.input]; exact e2) ?_ ?_
    · rw [h1, hf.input, hd]; exact g3
    · rw [hf.output, hd] at h3
      simp only [TrieRule.to, g2] at h3
      rw [hd]; exact h3
  · obtain ⟨g1, g2⟩ := he _ _ e3 e4 e5
    refine .rule r e.chars e.dots raw.output consumed tail hr (by rw [h2, hf.origin, ho]) e1
      (.inr (by rw [h1, hf.input]; exact e2)) g1 g2 ?_ h3
    rw [h1, hf.input, hf.output]
    exact from_dir d e

theorem held_explained {s : PState} {done : List Resolved} (hdone : coveredBy done = s.pos) (hout : ∃ l, done = s.out ++ l)
    {raw tr : Resolved} (hh : Held (ctx.prim d) (tableOps ctx d rules) cs.lower input s.out s.pos raw)
    (h1 : tr.input = raw.input) (h2 : tr.origin = raw.origin) (h3 : MaybeCapital cs d raw.output tr.output)
    (h4 : tr.effects = raw.effects) : Explained ctx d cs rules input done tr := by
  obtain ⟨l, hout⟩ := hout
  have hh := hh.more l
  rw [← hout, ← hdone] at hh
  cases hh with
  | matched pre chars post to o g1 g2 g3 g4 g5 g6 g7 =>
    obtain ⟨r, hr, ho, b, cons, er, hb⟩ := tableOps_of (cl := []) _ g1
    exact .matched r pre chars post b cons to hr (by rw [h2, g2, ho]) er hb (by rw [h1, g3]) (by rw [← g4]; exact h3) g7
  | context test action o g1 g2 g0 g3 =>
    obtain ⟨r, hr, ho, cons, er⟩ := tableOps_of (cl := []) _ g1
    refine .context r test action cons hr (by rw [h2, g2, ho]) er (fun hw ha => ?_) (fun hs => ?_)
    · obtain ⟨k2, k3, k4⟩ := g0 hw ha
      rw [h1, h4]
      exact ⟨⟨_, k2, h3⟩, k3⟩
    obtain ⟨k1, k2, k3, k4⟩ := g3 hs
    rw [h1, h4]
    exact ⟨k1, ⟨_, k2, h3⟩, k3⟩

theorem round_explained (h : Built (ctx.prim d) d (tableOps ctx d rules) t) (hind : Silent ind) {s s' : PState} {tr : Resolved}
    (hr : PReach t cs cons ind input s) (r : Round t cs cons ind input s s' tr) {done : List Resolved}
    (hdone : coveredBy done = s.pos) (hprev : s.prev = (done.flatMap (·.input)).getLast?) (hout : ∃ l, done = s.out ++ l) :
    Explained ctx d cs rules input done tr := by
  have hok := h.ok
  obtain ⟨ht, hd⟩ := reach_tracked hok hind hr
  obtain ⟨cands, delayed, raw, hg, hch, hlen, hin, hw, ho⟩ := r.ex
  have hcl := prim_neighbours ctx d
  -- entries of dictionaries
  have entry : ∀ e : TrieRule, ∀ op ∈ tableOps ctx d rules, (∃ b, op = .rule b e) ∨ op = .comp6 e →
      RuleMatches (ctx.neighbours d) cs.lower d e s.rest s.prev → FromRule d e raw → MaybeCapital cs d raw.output tr.output →
      Explained ctx d cs rules input done tr := by
    intro e op hop hkind hm hf h3
    obtain ⟨ru, hru, hof⟩ := tableOps_of (cl := ctx.neighbours d) op hop
    rcases hkind with ⟨b, rfl⟩ | rfl
    · exact entry_explained hru hof.1 hof.2.2 hdone hprev ht.rest hm hf hin ho h3
    · exact entry_explained hru hof.1 hof.2.2 hdone hprev ht.rest hm hf hin ho h3
  cases hch with
  | nocross hn _ =>
    have hm := List.mem_filter.1 (heaviest_mem hn)
    obtain ⟨rule, hrule, hmat, hfr⟩ := C13_found_rule_applies _ cs.lower d (nocrossRules _) t.nocross hok.nocross
      s.rest s.prev raw hm.1
    rw [hcl] at hmat
    refine entry rule _ (mem_nocrossRules.1 hrule) (.inl ⟨_, rfl⟩) hmat hfr ?_
    rw [← hok.dir]; exact maybeCapital_capitalise ..
  | rule hc _ _ _ =>
    obtain ⟨⟨all, hsel, hall⟩, -⟩ := gather_held hok ht hd hg
    have hre : MaybeCapital cs d raw.output (capitalise t cs cons s.pos raw).output := by
      rw [← hok.dir]; exact maybeCapital_capitalise ..
    have hord : raw ∈ all → Explained ctx d cs rules input done (capitalise t cs cons s.pos raw) := by
      intro hm
      rcases hall raw hm with hh | ⟨ru, b1, b2, b3⟩
      · exact held_explained hdone hout hh hin ho hre (capitalise_effects ..)
      · rw [hcl] at b2
        simp only [trieRules, List.mem_filterMap] at b1
        obtain ⟨op, hop, e⟩ := b1
        cases op with
        | char c dots prec o =>
          simp only at e
          split at e
          · next hdir =>
            cases e
            obtain ⟨rr, hrr, g1, g2, g3⟩ := tableOps_of (cl := ctx.neighbours d) _ hop
            obtain ⟨consumed, tail, e1, e2, e3, e4, e5⟩ := b2.parts
            rw [ht.rest, ← hdone] at e1
            refine .rule rr [c] dots [c] consumed tail hrr (by rw [ho, b3.origin, g1]) e1
              (.inr (by rw [hin, b3.input]; exact e2)) (g2 _ _) (by rw [g3]; intro w hw; cases hw) ?_ ?_
            · rw [hin, b3.input, hdir]; exact ⟨rfl, rfl⟩
            · have := hre
              rw [b3.output, hdir] at this
              rw [hdir]; exact this
          · cases e
        | rule b r' =>
          cases b with
          | false => cases e; exact entry ru _ hop (.inl ⟨_, rfl⟩) b2 b3 hre
          | true => cases e
        | _ => cases e
    rw [hsel] at hc
    unfold selectCandidates at hc
    simp only at hc
    by_cases h6 : cons.useComp6 s.pos = true
    · rw [if_pos h6] at hc
      obtain ⟨rule, hrule, hmat, hfr⟩ := C13_found_rule_applies _ cs.lower d (comp6Rules _) t.comp6 hok.comp6
        s.rest s.prev raw hc
      rw [hcl] at hmat
      exact entry rule _ (mem_comp6Rules.1 hrule) (.inr rfl) hmat hfr hre
    · rw [if_neg h6] at hc
      have hpd : raw ∈ preferDigit t cons s (all.filter (punctOk cons s.pos)) := by
        split at hc
        · exact (List.mem_filter.1 hc).1
        · exact hc
      unfold preferDigit at hpd
      split at hpd
      · next hb =>
        simp only [Bool.and_eq_true, decide_eq_true_eq] at hb
        split at hpd
        · exact hord (List.mem_filter.1 hpd).1
        · next c rest hrest =>
          split at hpd
          · exact hord (List.mem_filter.1 hpd).1
          · next dg hdg =>
            rcases List.mem_append.1 hpd with hpd | hpd
            · exact hord (List.mem_filter.1 (List.mem_filter.1 hpd).1).1
            · simp only [List.mem_singleton] at hpd
              subst hpd
              obtain ⟨o, org, e, hop⟩ := hok.digits c raw (mem_assoc hdg)
              obtain ⟨rr, hrr, g1, g2, k, cells, rcons, g3, g4⟩ := tableOps_of (cl := ctx.neighbours d) _ hop
              have e1 : input.drop (coveredBy done) = [c] ++ rest := by
                rw [hdone, ← ht.rest, hrest]; rfl
              refine .rule rr [o] cells.toText [o] [c] rest hrr (by rw [ho, e, g1]; rfl) e1 (.inl (by rw [hin, e]; rfl))
                (by rw [g3]; exact .charDef) (by rw [g3]; intro w hw; cases hw) ?_ ?_
              · rw [g2, hin, e]; exact ⟨by rw [g4]; rfl, rfl⟩
              · have := hre
                rw [e] at this
                rw [e]; exact this
      · exact hord (List.mem_filter.1 hpd).1
  | @plain c rest _ hrest hall hnn hpl =>
    have e1 : input.drop (coveredBy done) = [c] ++ rest := by
      rw [hdone, ← ht.rest, hrest]; rfl
    unfold plainTranslation at hpl
    split at hpl
    · next r' hr' =>
      cases hpl
      have hmem := mem_assoc hr'
      rw [hok.charTrans] at hmem
      split at hmem
      · next hdir =>
        obtain ⟨op, hop, e⟩ := List.mem_filterMap.mp hmem
        cases op with
        | char c' dots prec o =>
          simp only [Option.some.injEq, Prod.mk.injEq] at e
          obtain ⟨rfl, rfl⟩ := e
          obtain ⟨rr, hrr, g1, g2, g3⟩ := tableOps_of (cl := ctx.neighbours d) _ hop
          refine .rule rr [c'] dots dots [c'] rest hrr (by rw [g1]; rfl) e1 (.inl rfl) (g2 _ _)
            (by rw [g3]; intro w hw; cases hw) ?_ (.inl rfl)
          rw [hdir]; exact ⟨rfl, rfl⟩
        | _ => cases e
      · cases hmem
    · next hn =>
      have hnodef : d = .forward → ∀ r ∈ rules, (∀ dots, ¬ r.rule.Defines c dots) ∧
          ∀ name b, r.rule = .base name c b → ctx.defs.get b = none := by
        intro hdir r hr
        have key : ¬ ∃ dots prec o, PrimOp.char c dots prec o ∈ tableOps ctx .forward rules := by
          rintro ⟨dots, prec, o, hop⟩
          unfold assoc at hn
          rw [Option.map_eq_none_iff, List.find?_eq_none, hok.charTrans, if_pos hdir] at hn
          have := hn (c, Resolved.new [c] dots 1 .main (some o)) (List.mem_filterMap.mpr ⟨_, by rw [hdir]; exact hop, rfl⟩)
          simp at this
        refine ⟨fun dots hdots => key (defines_op hr (.inl ⟨dots, hdots⟩)), fun name b e => ?_⟩
        cases hg : ctx.defs.get b with
        | none => rfl
        | some x => exact absurd (defines_op hr (.inr ⟨name, b, e, by rw [hg]; simp⟩)) key
      have hu := hok.undefined.trans (congrArg List.getLast? (undefined_ops (ctx := ctx) (d := d) (rules := rules)))
      split at hpl
      · next dots hdots =>
        cases hpl
        rw [hu] at hdots
        refine .undefined c rest rfl (by rw [e1]; rfl) rfl hnodef (.inl ?_)
        rcases last_undefined (rules := rules) with ⟨a, r, b, cells, g1, g2, g3, g4⟩ | ⟨g1, g2⟩
        · rw [hdots] at g3
          injection g3 with g3
          exact ⟨a, r, b, cells, g1, g2, g3, g4⟩
        · rw [g2] at hdots; cases hdots
      · next hdots =>
        split at hpl
        · cases hpl
        · next dots he =>
          cases hpl
          rw [hu, List.getLast?_eq_none_iff] at hdots
          unfold handleUndefined at he
          rw [hok.defs] at he
          refine .undefined c rest rfl (by rw [e1]; rfl) rfl hnodef (.inr ⟨?_, he⟩)
          rcases last_undefined (rules := rules) with ⟨a, r, b, cells, g1, g2, g3, g4⟩ | ⟨g1, g2⟩
          · rw [hdots] at g3; cases g3
          · exact g1

end

/-! ## From rounds to the trace -/

/-- Every item of a trace is an indication, or was emitted in a round after the items before it. -/
theorem loop_done {ctx : PrimCtx} {d : Direction} {ops : List PrimOp} {t : PrimaryTable} (h : PrimOk ctx d ops t) {cs : Case}
    {cons : Constraints} {ind : Nat → List Resolved} (hind : ∀ p, ∀ r ∈ ind p, r.input = []) {input : Text} :
    ∀ {k s ts}, PReach t cs cons ind input s → pLoop t cs cons ind input k s = .ok ts →
      ∃ l, ts = s.out ++ l ∧ ∀ a tr b, l = a ++ tr :: b → (∃ p, tr ∈ ind p) ∨
        ∃ u u' extra, PReach t cs cons ind input u ∧ Round t cs cons ind input u u' tr ∧ s.out ++ a = u.out ++ extra ∧
          ∀ x ∈ extra, x ∈ ind u.pos := by
  intro k
  induction k with
  | zero => intro s ts _ e; simp [pLoop] at e
  | succ k ih =>
    intro s ts hr e
    have inv := hr.inv h hind
    simp only [pLoop] at e
    split at e
    · cases e
    · next out est =>
      cases e
      have hend : ts = (if s.lastInd = some s.pos then s.out else s.out ++ ind s.pos) := by
        obtain ⟨cands, delayed, hg, -, -⟩ := gather_spec h cs cons input inv
        unfold pStep at est
        simp only [hg] at est
        split at est
        · split at est <;> cases est
        · split at est
          · split at est <;> cases est
          · split at est
            · cases est; rfl
            · split at est <;> cases est
      split at hend
      · exact ⟨[], by simp [hend], by intro a tr b e; simp at e⟩
      · refine ⟨ind s.pos, hend, ?_⟩
        intro a tr b e
        exact .inl ⟨s.pos, by rw [e]; simp⟩
    · next s' est =>
      obtain ⟨tr, r⟩ := pStep_round h inv est
      obtain ⟨l, e', hl⟩ := ih (.step hr est) e
      have hinds : ∃ inds, s'.out = s.out ++ inds ++ [tr] ∧ ∀ x ∈ inds, x ∈ ind s.pos := by
        rw [r.out]
        split
        · exact ⟨[], by simp, by simp⟩
        · exact ⟨ind s.pos, rfl, fun x hx => hx⟩
      obtain ⟨inds, hout, hi⟩ := hinds
      refine ⟨inds ++ tr :: l, by rw [e', hout]; simp, ?_⟩
      intro a x b hab
      rcases List.append_eq_append_iff.1 hab with ⟨c, hc1, hc2⟩ | ⟨c, hc1, hc2⟩
      · cases c with
        | nil =>
          simp only [List.nil_append, List.cons.injEq] at hc2
          simp only [List.append_nil] at hc1
          obtain ⟨rfl, -⟩ := hc2
          exact .inr ⟨s, s', inds, hr, r, by rw [hc1], hi⟩
        | cons y c =>
          simp only [List.cons_append, List.cons.injEq] at hc2
          obtain ⟨rfl, hc2⟩ := hc2
          rcases hl c x b hc2 with hx | ⟨u, u', extra, h1, h2, h3, h4⟩
          · exact .inl hx
          · refine .inr ⟨u, u', extra, h1, h2, ?_, h4⟩
            rw [← h3, hc1, hout]
            simp
      · cases c with
        | nil =>
          simp only [List.nil_append, List.cons.injEq] at hc2
          simp only [List.append_nil] at hc1
          obtain ⟨rfl, -⟩ := hc2
          exact .inr ⟨s, s', inds, hr, r, by rw [← hc1], hi⟩
        | cons y c =>
          simp only [List.cons_append, List.cons.injEq] at hc2
          left
          exact ⟨s.pos, hi x (by rw [hc1, ← hc2.1]; simp)⟩

/-- **C56.** Everything the main stage of a translation writes is explained by a line of the table: it is a sign the table
defines; or it is the braille (backward: the characters) of a rule whose characters (backward: cells) are what the text
reads here, whose opcode allows the neighbouring characters, and whose conditions on classes hold; or what a `match` or
`context` rule writes where its patterns fit; or what the table says for characters it has no definition for. -/
theorem C56_main_stage_explained (sys : Sys) (ctx : TableCtx) (d : Direction) (rules : List Anchored) (p : Primary)
    (h : MainStage sys ctx d rules p) (cs : Case) (input : Text) (spans : List Span) (ts : List Resolved)
    (ht : p.Traces cs input spans ts) (done : List Resolved) (tr : Resolved) (rest : List Resolved)
    (e : ts = done ++ tr :: rest) : Explained ctx d cs rules input done tr := by
  obtain ⟨en, cons, ind, -, -, h3, k, ek⟩ := ht
  have hsign : ∀ pos, ∀ x ∈ (ind[pos]?).getD [], SignOf rules x := fun pos x hx =>
    h.signs x (precompute_signs _ _ _ _ _ h3 pos x hx)
  have hind : Silent fun pos => (ind[pos]?).getD [] := by
    intro pos x hx
    obtain ⟨r, -, dots, -, rfl⟩ := hsign pos x hx
    exact ⟨rfl, rfl⟩
  have hb := h.built
  obtain ⟨l, e', hl⟩ := loop_done hb.ok (fun p x hx => (hind p x hx).1) .init ek
  simp only [PState.init, List.nil_append] at e' hl
  subst e'
  rcases hl done tr rest e with ⟨pos, hx⟩ | ⟨u, u', extra, h1, h2, h4, h5⟩
  · obtain ⟨r, hr, dots, g1, g2⟩ := hsign pos tr hx
    exact .sign r dots hr g1 g2
  · obtain ⟨htr, -⟩ := reach_tracked hb.ok hind h1
    have hflat : done.flatMap (·.input) = u.out.flatMap (·.input) := by
      rw [h4, List.flatMap_append, flatMap_nil_of (fun x hx => (hind _ x (h5 x hx)).1), List.append_nil]
    refine round_explained hb hind h1 h2 ?_ ?_ ⟨extra, h4⟩
    · rw [coveredBy, hflat, htr.pos, coveredBy]
    · rw [hflat, htr.prev]

/-- **C56** for translators: the translation consists of stages before the main stage, the main stage, every piece of which
is explained by a rule of the table that may be used in the direction, and stages after it. -/
theorem C56_translation_explained (sys : Sys) (rules : List Anchored) (d : Direction) (steps : List Transform)
    (h : Pipeline.Compiles sys rules d steps) (cs : Case) (spans : List Span) (input output : Text)
    (ht : Pipeline.Translates cs spans input steps output) : ∃ before p after read ts, steps = before ++ [.primary p] ++ after ∧
      Pipeline.Translates cs [] input before read ∧ p.Traces cs read spans ts ∧
      Pipeline.Translates cs [] (outputOf ts) after output ∧
      ∀ done tr rest, ts = done ++ tr :: rest →
        Explained (TableCtx.compile sys.alpha (allowedRules rules d)) d cs (allowedRules rules d) read done tr := by
  obtain ⟨before, p, after, e, hp, -, -, hk⟩ := C44_spans_main_stage sys rules d steps h
  obtain ⟨read, ts, h1, h2, h3⟩ := (hk cs spans input output).mp ht
  exact ⟨before, p, after, read, ts, e, h1, h2, h3, C56_main_stage_explained sys _ d _ p hp cs read spans ts h2⟩

end Louis
