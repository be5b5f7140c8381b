import Verif.Spec.Precedence
import Verif.Props.Longest

/-!
# C14 for the lines of a table
-/

namespace Louis

variable {sys : Sys} {ctx : TableCtx} {d : Direction} {rules : List Anchored} {p : Primary} {cs : Case} {text : Text}
  {spans : List Span} {ts done rest : List Resolved} {tr : Resolved}

/-! ## The fold over one node -/

/-- Whose translation is stored in a node: the last one with a precedence, or the first one. -/
theorem store_winner {d : Direction} : ∀ {l : List TrieRule} {o : Option Resolved} {f : Resolved},
    (∀ t, o = some t → t.prec = .default) → l.foldl (fun o r => r.store d o) o = some f →
    (o = some f ∧ ∀ y ∈ l, y.prec = .default) ∨
    ∃ a x b, l = a ++ x :: b ∧ FromRule d x f ∧ (∀ y ∈ b, y.prec = .default) ∧ (o = none ∧ a = [] ∨ x.prec ≠ .default) := by
  intro l
  induction l with
  | nil => intro o f _ h; exact .inl ⟨h, fun _ h => (nomatch h)⟩
  | cons r rs ih =>
    intro o f ho h
    rw [List.foldl_cons] at h
    have hd : ∀ t, r.store d o = some t → t.prec = .default := by
      intro t ht
      unfold TrieRule.store at ht
      split at ht
      · next t0 =>
        split at ht
        · cases ht; rfl
        · cases ht; exact ho _ rfl
      · cases ht; rfl
    rcases ih hd h with ⟨h1, h2⟩ | ⟨a, x, b, rfl, h2, h3, h4⟩
    · unfold TrieRule.store at h1
      split at h1
      · next t0 =>
        split at h1
        · next hp =>
          refine .inr ⟨[], r, rs, rfl, ?_, h2, .inr ?_⟩
          · cases h1; exact ⟨rfl, rfl, rfl, rfl, rfl, rfl, rfl, .inr rfl⟩
          · intro e
            rw [e] at hp
            simp [Prec.rank] at hp
        · next hp =>
          refine .inl ⟨h1, fun y hy => ?_⟩
          rcases List.mem_cons.mp hy with rfl | hy
          · cases hy : y.prec with
            | default => rfl
            | _ => rw [hy, ho _ rfl] at hp; simp [Prec.rank] at hp
          · exact h2 y hy
      · refine .inr ⟨[], r, rs, rfl, ?_, h2, .inl ⟨rfl, rfl⟩⟩
        cases h1; exact ⟨rfl, rfl, rfl, rfl, rfl, rfl, rfl, .inl rfl⟩
    · refine .inr ⟨r :: a, x, b, rfl, h2, h3, .inr ?_⟩
      rcases h4 with ⟨h4, -⟩ | h4
      · exfalso
        unfold TrieRule.store at h4
        split at h4
        · split at h4 <;> cases h4
        · cases h4
      · exact h4

/-! ## The entries of lines of one opcode -/

/-- The boundaries of the entries of a line. -/
def Rule.entryEdges : Rule → List (Option (List CharClass) × Option (List CharClass))
  | .text k _ _ _ _ => k.edges
  | .contraction _ | .joinword _ _ | .lowword _ _ _ => [(some wordEdge, some wordEdge)]
  | .begnum _ _ _ => [(some wordEdge, some [.digit])]
  | .midnum _ _ _ => [(some [.digit], some [.digit])]
  | .endnum _ _ _ => [(some [.digit], none)]
  | _ => [(none, none)]

theorem brailleOf_eq {defs : CharDefs} {b : Braille} {chars dots dots' : Text} (h : defs.braille b chars = .ok dots)
    (h' : BrailleOf defs chars b dots') : dots' = dots := by
  rw [of_brailleOf h'] at h
  cases h; rfl

/-- The entries of a line that has an opcode for pieces of text. -/
theorem textOps_shape {L : List Char} {D : List Text} {r : Anchored} {r' : Rule} (hk : r'.SameKind r.rule ∨ r.rule.SameKind r')
    {ops : List PrimOp} (h : r.ops ctx d L D = .ok ops) :
    ∃ chars dots, ops = r.rule.entryEdges.map (fun e => r.insertion chars dots e.1 e.2 (resolveWiths ctx.classes r.rule.withs)) ∧
      ∀ read, r.rule.IsFor ctx d read → ∃ written, Reading.dir d chars dots read written := by
  obtain ⟨rule, id⟩ := r
  simp only at hk
  have key : ∀ {chars dots : Text}, (∀ cl before after c' d', rule.Says cl ctx.defs before after c' d' → c' = chars ∧ d' = dots) →
      rule.backSign? = none → ∀ read, rule.IsFor ctx d read → ∃ written, Reading.dir d chars dots read written := by
    rintro chars dots hs hb read ⟨c', d', w, hr, ⟨cl, b, a, hsay⟩ | ⟨-, cells, hc, -⟩⟩
    · obtain ⟨rfl, rfl⟩ := hs _ _ _ _ _ hsay
      exact ⟨w, hr⟩
    · rw [hb] at hc; cases hc
  unfold Anchored.ops at h
  simp only at h
  cases rule
  case text k chars b cons withs =>
    simp only at h
    split at h
    · cases h
    · next dots hb =>
      cases h
      refine ⟨chars, dots, rfl, key ?_ rfl⟩
      intro cl bf af c' d' hs
      cases hs with | text h1 h2 => exact ⟨rfl, brailleOf_eq hb h1⟩
  case contraction chars =>
    simp only at h
    split at h
    · cases h
    · next dots hb =>
      cases h
      refine ⟨chars, dots, rfl, key ?_ rfl⟩
      intro cl bf af c' d' hs
      cases hs with | contraction h1 => exact ⟨rfl, brailleOf_eq hb (.implicit h1)⟩
  case syllable chars b =>
    simp only at h
    split at h
    · cases h
    · next dots hb =>
      cases h
      refine ⟨chars, dots, rfl, key ?_ rfl⟩
      intro cl bf af c' d' hs
      cases hs with | syllable h1 => exact ⟨rfl, brailleOf_eq hb h1⟩
  case endnum chars b cons =>
    simp only at h
    split at h
    · cases h
    · next dots hb =>
      cases h
      refine ⟨chars, dots, rfl, key ?_ rfl⟩
      intro cl bf af c' d' hs
      cases hs with | endnum h1 => exact ⟨rfl, brailleOf_eq hb h1⟩
  case largesign chars b =>
    cases h
    exact ⟨chars, _, rfl, key (fun _ _ _ _ _ hs => by cases hs; exact ⟨rfl, rfl⟩) rfl⟩
  case joinword chars b =>
    cases h
    exact ⟨chars, _, rfl, key (fun _ _ _ _ _ hs => by cases hs; exact ⟨rfl, rfl⟩) rfl⟩
  case lowword chars b cons =>
    cases h
    exact ⟨chars, _, rfl, key (fun _ _ _ _ _ hs => by cases hs; exact ⟨rfl, rfl⟩) rfl⟩
  case begnum chars b cons =>
    cases h
    exact ⟨chars, _, rfl, key (fun _ _ _ _ _ hs => by cases hs; exact ⟨rfl, rfl⟩) rfl⟩
  case midnum chars b cons =>
    cases h
    exact ⟨chars, _, rfl, key (fun _ _ _ _ _ hs => by cases hs; exact ⟨rfl, rfl⟩) rfl⟩
  all_goals (rcases hk with hk | hk <;> cases hk)

theorem sameKind_eq {r r' : Rule} (h : r.SameKind r') : r.entryEdges = r'.entryEdges ∧ r.withs = r'.withs ∧
    r.isNocross = r'.isNocross ∧ r.sign? = none ∧ r.IsPattern = false := by
  cases h with
  | text h | lowword h | begnum h | midnum h | endnum h => exact ⟨rfl, rfl, h, rfl, rfl⟩
  | _ => exact ⟨rfl, rfl, rfl, rfl, rfl⟩

/-- The precedence of a line for a piece of text, from its opcode. -/
theorem prec_overrides {r r' : Rule} (h : r.SameKind r' ∨ r'.SameKind r) : r.prec ≠ .default ↔ r.Overrides := by
  rcases h with h | h
  · cases h with
    | @text k => cases k <;> simp [Rule.prec, Rule.Overrides]
    | _ => simp [Rule.prec, Rule.Overrides]
  · cases h with
    | @text k => cases k <;> simp [Rule.prec, Rule.Overrides]
    | _ => simp [Rule.prec, Rule.Overrides]


/-! ## The entry behind an item of a trace -/

/-- What is written for a line that has entries in the tries only is found in a trie. -/
theorem round_found {pc : PrimCtx} {ops : List PrimOp} {t : PrimaryTable} (h : PrimOk pc d ops t) {cons : Constraints}
    {ind : Nat → List Resolved} {s s' : PState} (hr : PReach t cs cons ind text s) (r : Round t cs cons ind text s s' tr)
    {o : Origin} (ho : tr.origin = some o) (hops : ∀ op ∈ ops, op.origin? = some o → ∃ nc e, op = .rule nc e) :
    ∃ raw, raw.origin = some o ∧ raw.input = tr.input ∧
      (raw ∈ t.nocross.find cs.lower s.rest s.prev ∨ raw ∈ t.trie.find cs.lower s.rest s.prev) := by
  obtain ⟨cands, delayed, raw, hg, hch, hlen, hin, hw, hor⟩ := r.ex
  rw [ho] at hor
  refine ⟨raw, hor.symm, hin.symm, ?_⟩
  have nopat : ¬ FromPattern ops raw := by
    rintro ⟨op, h1, h2, -, h4⟩
    obtain ⟨nc, e, rfl⟩ := hops op h1 (h4.trans hor.symm)
    exact h2
  cases hch with
  | nocross hn _ => exact .inl (List.mem_filter.1 (heaviest_mem hn)).1
  | rule hc _ _ _ =>
    obtain ⟨all, hsel, hall, -⟩ := gather_find h (hr.delayed_origin h) hg
    rw [hsel] at hc
    unfold selectCandidates at hc
    simp only at hc
    by_cases h6 : cons.useComp6 s.pos = true
    · rw [if_pos h6] at hc
      obtain ⟨e, he, -, hfr⟩ := C13_found_rule_applies pc.trieClasses cs.lower d (comp6Rules ops) t.comp6 h.comp6
        s.rest s.prev raw hc
      have := hops _ (mem_comp6Rules.1 he) (hfr.origin.symm.trans hor.symm)
      obtain ⟨nc, e', x⟩ := this
      cases x
    · rw [if_neg h6] at hc
      have hfin : raw ∈ preferDigit t cons s (all.filter (punctOk cons s.pos)) := by
        split at hc
        · exact (List.mem_filter.1 hc).1
        · exact hc
      have hord : raw ∈ all.filter (punctOk cons s.pos) → raw ∈ t.trie.find cs.lower s.rest s.prev := fun hm =>
        (hall raw (List.mem_filter.1 hm).1).resolve_right nopat
      right
      unfold preferDigit at hfin
      split at hfin
      · split at hfin
        · exact hord hfin
        · next c rest hrest =>
          split at hfin
          · exact hord hfin
          · next dg hdg =>
            rcases List.mem_append.1 hfin with hpd | hpd
            · exact hord (List.mem_filter.1 hpd).1
            · simp only [List.mem_singleton] at hpd
              subst hpd
              obtain ⟨o', org, rfl, hop⟩ := h.digits c raw (mem_assoc hdg)
              obtain ⟨nc, e', x⟩ := hops _ hop hor.symm
              cases x
      · exact hord hfin
  | plain hrest hall hnn hpl =>
    obtain ⟨dots, prec, hop⟩ := plain_origin h hpl hor.symm
    obtain ⟨nc, e', x⟩ := hops _ hop rfl
    cases x

/-- A list that ends in a part without `x` has that part after each `x`. -/
theorem suffix_after {α : Type} {a b l k : List α} {x : α} (h : a ++ x :: b = l ++ k) (hx : x ∉ k) : ∀ y ∈ k, y ∈ b := by
  rcases List.append_eq_append_iff.mp h with ⟨m, rfl, e⟩ | ⟨m, rfl, e⟩
  · cases m with
    | nil =>
      simp only [List.nil_append] at e
      exact fun y _ => absurd (by rw [← e]; exact List.mem_cons_self ..) hx
    | cons z zs =>
      simp only [List.cons_append, List.cons.injEq] at e
      intro y hy
      rw [e.2]
      exact List.mem_append.mpr (.inr hy)
  · exact absurd (by rw [e]; simp) hx

theorem firstOps_origin {r : Anchored} : ∀ op ∈ r.firstOps, ∀ o, op.origin? = some o → o = r.origin := by
  intro op h o ho
  unfold Anchored.firstOps at h
  split at h
  · rw [List.mem_singleton.mp h] at ho; cases ho; rfl
  · rw [List.mem_singleton.mp h] at ho; cases ho; rfl
  · cases h

theorem opsD_origin {L : List Char} {D : List Text} {r : Anchored} : ∀ op ∈ r.opsD ctx d L D, ∀ o, op.origin? = some o → o = r.origin := by
  intro op h o ho
  unfold Anchored.opsD at h
  cases e : r.ops ctx d L D with
  | error _ => rw [e] at h; cases h
  | ok ops => rw [e] at h; exact ops_origin e op h o ho

/-- An operation with the origin of a line is an operation of this line. -/
theorem op_line (hids : DistinctIds rules) {r : Anchored} (hr : r ∈ rules) {op : PrimOp} (hop : op ∈ tableOps ctx d rules)
    (ho : op.origin? = some r.origin) :
    op ∈ r.firstOps ∨ op ∈ r.opsD ctx d (litdigitChars d rules) (letterDotsOf d rules) := by
  rcases List.mem_append.mp hop with h | h
  · obtain ⟨z, hz, h⟩ := List.mem_flatMap.mp h
    have := hids.origin hr hz (by rw [firstOps_origin op h _ ho])
    subst this
    exact .inl h
  · obtain ⟨z, hz, h⟩ := List.mem_flatMap.mp h
    have := hids.origin hr hz (by rw [opsD_origin op h _ ho])
    subst this
    exact .inr h

theorem opEntry_origin {nc : Bool} {op : PrimOp} {x : TrieRule} (h : opEntry d nc op = some x) : op.origin? = some x.origin := by
  cases op with
  | rule b r => simp only [opEntry] at h; split at h <;> cases h; rfl
  | char => simp only [opEntry] at h; split at h <;> cases h; rfl
  | _ => cases h

theorem sameKind_first {r : Anchored} {r' : Rule} (hk : r.rule.SameKind r') : r.firstOps = [] := by
  obtain ⟨rule, id⟩ := r
  simp only at hk
  cases hk <;> rfl

/-- The entry of a line of the same opcode on the path of a given entry. -/
theorem sameKind_entry {L : List Char} {D : List Text} {r r' : Anchored} (hk : r.rule.SameKind r'.rule)
    (ho : ∃ ops, r.ops ctx d L D = .ok ops) (ho' : ∃ ops, r'.ops ctx d L D = .ok ops) {nc : Bool} {op : PrimOp} {x : TrieRule}
    (hop : op ∈ r.opsD ctx d L D) (hx : opEntry d nc op = some x) (hf : r'.rule.IsFor ctx d (x.from d)) (cl : CharClasses) :
    x.prec = r.rule.prec ∧ ∃ op' ∈ r'.opsD ctx d L D, ∃ y, opEntry d nc op' = some y ∧ y.path cl d = x.path cl d ∧
      y.prec = r'.rule.prec := by
  obtain ⟨ops, ho⟩ := ho
  obtain ⟨ops', ho'⟩ := ho'
  unfold Anchored.opsD at hop ⊢
  rw [ho] at hop
  rw [ho']
  obtain ⟨chars, dots, rfl, -⟩ := textOps_shape (.inr hk) ho
  obtain ⟨chars', dots', rfl, hread⟩ := textOps_shape (.inl hk) ho'
  obtain ⟨e1, e2, e3, -, -⟩ := sameKind_eq hk
  simp only [okOf, Option.getD_some] at hop ⊢
  obtain ⟨e, he, rfl⟩ := List.mem_map.mp hop
  have hxe := insertion_entry hx
  obtain ⟨w, hw⟩ := hread _ hf
  refine ⟨by rw [hxe], _, List.mem_map.mpr ⟨e, by rw [← e1]; exact he, rfl⟩,
    ⟨chars', dots', e.1, e.2, resolveWiths ctx.classes r'.rule.withs, r'.rule.prec, .main, r'.origin⟩, ?_, ?_, rfl⟩
  · unfold Anchored.insertion opEntry at hx ⊢
    simp only at hx ⊢
    rw [← e3]
    split at hx
    · next hn => rw [if_pos hn]
    · cases hx
  · have hfrom : (⟨chars', dots', e.1, e.2, resolveWiths ctx.classes r'.rule.withs, r'.rule.prec, .main, r'.origin⟩ : TrieRule).from d =
        x.from d := by
      cases d with
      | forward => exact hw.1.symm
      | backward => exact hw.1.symm
    unfold TrieRule.path
    rw [hfrom, hxe, e2]

/-- **C14, exactly.** Of the lines with the same opcode, the same conditions and the same text, the one that is used is the last
one, if its opcode is one of those that replace earlier lines, and the first one otherwise. -/
theorem C14_line_used (h : MainStage sys ctx d rules p) (hids : DistinctIds rules) (hn : rules.Nodup) (ht : p.Traces cs text spans ts)
    (htr : tr ∈ ts) (above below : List Anchored) (r : Anchored) (hsplit : rules = above ++ r :: below) (ho : tr.origin = some r.origin)
    (r' : Anchored) (hk : r.rule.SameKind r'.rule) (hf : r'.rule.IsFor ctx d tr.input) :
    (r' ∈ below → ¬ r'.rule.Overrides) ∧ (r' ∈ above → r.rule.Overrides) := by
  have hr : r ∈ rules := by rw [hsplit]; simp
  have hna : r ∉ above ∧ r ∉ below := by
    rw [hsplit, List.nodup_append, List.nodup_cons] at hn
    exact ⟨fun hm => hn.2.2 r hm r (List.mem_cons_self ..) rfl, hn.2.1.1⟩
  obtain ⟨hna, hnb⟩ := hna
  have hops : ∀ r ∈ rules, ∃ ops, r.ops ctx d (litdigitChars d rules) (letterDotsOf d rules) = .ok ops := by
    obtain ⟨p₀, hc, -⟩ := h
    exact (compile_compiled hc).ops
  obtain ⟨done, rest, e⟩ := List.append_of_mem htr
  rcases round_at h ht e with ⟨r₂, hr₂, dots, hs, rfl⟩ | ⟨u, u', cons, ind, hreach, hround, -⟩
  · have : r₂ = r := hids.origin hr hr₂ ho
    rw [this, (sameKind_eq hk).2.2.2.1] at hs
    cases hs
  have hb := h.built.ok
  have honly : ∀ op ∈ tableOps ctx d rules, op.origin? = some r.origin → ∃ nc e, op = .rule nc e := by
    intro op hop hor
    rcases op_line hids hr hop hor with h1 | h1
    · rw [sameKind_first hk] at h1; cases h1
    · obtain ⟨ops, hok⟩ := hops r hr
      unfold Anchored.opsD at h1
      rw [hok] at h1
      obtain ⟨chars, dots, rfl, -⟩ := textOps_shape (.inr hk) hok
      obtain ⟨e, -, rfl⟩ := List.mem_map.mp h1
      exact ⟨_, _, rfl⟩
  obtain ⟨raw, hro, hri, hfound⟩ := round_found hb hreach hround ho honly
  have key : ∀ nc : Bool, ∀ t : Trie,
      Dictionary (ctx.prim d).trieClasses d ((tableOps ctx d rules).filterMap (opEntry d nc)) t →
      raw ∈ t.find cs.lower u.rest u.prev → (r' ∈ below → ¬ r'.rule.Overrides) ∧ (r' ∈ above → r.rule.Overrides) := by
    intro nc t hdict hmem
    have hmap : t.Map := by obtain ⟨t0, -, h⟩ := hdict; exact h.1
    obtain ⟨path, hat, -⟩ := (mem_find t u.rest u.prev hmap).mp hmem
    rw [hdict.at] at hat
    rcases store_winner (fun _ e => by cases e) hat with ⟨e0, -⟩ | ⟨a, x, b, hl, hfr, hlast, hfirst⟩
    · cases e0
    have hxo : x.origin = r.origin := by
      have := hfr.origin.symm.trans hro
      exact Option.some.inj this
    have hxm := List.mem_filter.mp (show x ∈ ((tableOps ctx d rules).filterMap (opEntry d nc)).filter _ by rw [hl]; simp)
    have hpath : x.path (ctx.prim d).trieClasses d = path := of_decide_eq_true hxm.2
    obtain ⟨op, hop, hxe⟩ := List.mem_filterMap.mp hxm.1
    have hline : op ∈ r.opsD ctx d (litdigitChars d rules) (letterDotsOf d rules) := by
      rcases op_line hids hr hop (by rw [opEntry_origin hxe, hxo]) with h1 | h1
      · rw [sameKind_first hk] at h1; cases h1
      · exact h1
    -- the parts of the list
    generalize hF : (fun z : Anchored => ((z.opsD ctx d (litdigitChars d rules) (letterDotsOf d rules)).filterMap (opEntry d nc)).filter
      fun x => x.path (ctx.prim d).trieClasses d = path) = F
    have hparts : ∃ first, ((tableOps ctx d rules).filterMap (opEntry d nc)).filter
        (fun x => x.path (ctx.prim d).trieClasses d = path) = first ++ (above.flatMap F ++ F r ++ below.flatMap F) ∧
        ∀ y ∈ first, y ∈ ((rules.flatMap (·.firstOps)).filterMap (opEntry d nc)) := by
      refine ⟨((rules.flatMap (·.firstOps)).filterMap (opEntry d nc)).filter fun x => x.path (ctx.prim d).trieClasses d = path, ?_,
        fun y hy => (List.mem_filter.mp hy).1⟩
      unfold tableOps
      rw [List.filterMap_append, List.filter_append]
      congr 1
      have : ∀ l : List Anchored, ((l.flatMap fun r => r.opsD ctx d (litdigitChars d rules) (letterDotsOf d rules)).filterMap
          (opEntry d nc)).filter (fun x => x.path (ctx.prim d).trieClasses d = path) = l.flatMap F := by
        intro l
        induction l with
        | nil => rfl
        | cons z zs ih =>
          rw [List.flatMap_cons, List.filterMap_append, List.filter_append, ih, List.flatMap_cons, ← hF]
      rw [this, hsplit, List.flatMap_append, List.flatMap_cons, List.append_assoc]
    obtain ⟨first, hparts, hfirstm⟩ := hparts
    rw [hparts] at hl
    have hFo : ∀ z y, y ∈ F z → y.origin = z.origin := by
      intro z y hy
      rw [← hF] at hy
      obtain ⟨op, hop, hy⟩ := List.mem_filterMap.mp (List.mem_filter.mp hy).1
      exact opsD_origin op hop _ (opEntry_origin hy)
    have hxr : x ∈ F r := by
      rw [← hF]
      exact List.mem_filter.mpr ⟨List.mem_filterMap.mpr ⟨op, hline, hxe⟩, decide_eq_true hpath⟩
    have hfrom : x.from d = tr.input := hfr.input.symm.trans hri
    have hother : ∀ z ∈ rules, z = r' → ∃ y ∈ F z, y.prec = r'.rule.prec := by
      rintro z hz rfl
      obtain ⟨-, op', hop', y, hye, hyp, hyprec⟩ := sameKind_entry hk (hops r hr) (hops z hz) hline hxe (by rw [hfrom]; exact hf)
        (ctx.prim d).trieClasses
      refine ⟨y, ?_, hyprec⟩
      rw [← hF]
      exact List.mem_filter.mpr ⟨List.mem_filterMap.mpr ⟨op', hop', hye⟩, decide_eq_true (hyp.trans hpath)⟩
    have hnd : ∀ z, z ∈ rules → z.origin = r.origin → z = r := fun z hz e => hids.origin hr hz (by rw [e])
    constructor
    · intro hin hov
      have hz : r' ∈ rules := by rw [hsplit]; simp [hin]
      obtain ⟨y, hy, hyprec⟩ := hother r' hz rfl
      have hx : x ∉ below.flatMap F := by
        intro hx
        obtain ⟨z, hz, hx⟩ := List.mem_flatMap.mp hx
        have := hnd z (by rw [hsplit]; simp [hz]) ((hFo z x hx).symm.trans hxo)
        subst this
        exact hnb hz
      rw [← List.append_assoc] at hl
      have := hlast y (suffix_after hl.symm hx y (List.mem_flatMap.mpr ⟨r', hin, hy⟩))
      exact (prec_overrides (.inr hk)).mpr hov (hyprec.symm.trans this)
    · intro hin
      have hz : r' ∈ rules := by rw [hsplit]; simp [hin]
      obtain ⟨y, hy, hyprec⟩ := hother r' hz rfl
      rcases hfirst with ⟨-, rfl⟩ | hp
      · exfalso
        have hx : x ∉ above.flatMap F := by
          intro hx
          obtain ⟨z, hz, hx⟩ := List.mem_flatMap.mp hx
          have := hnd z (by rw [hsplit]; simp [hz]) ((hFo z x hx).symm.trans hxo)
          subst this
          exact hna hz
        have hxf : x ∉ first := by
          intro hx
          obtain ⟨op, hop, hxe⟩ := List.mem_filterMap.mp (hfirstm x hx)
          obtain ⟨z, hz, hop⟩ := List.mem_flatMap.mp hop
          have := hnd z hz (by rw [← hxo]; exact (firstOps_origin op hop _ (opEntry_origin hxe)).symm)
          subst this
          rw [sameKind_first hk] at hop
          cases hop
        have hy' : y ∈ above.flatMap F := List.mem_flatMap.mpr ⟨r', hin, hy⟩
        cases first with
        | cons z zs =>
          simp only [List.cons_append, List.nil_append, List.cons.injEq] at hl
          rw [hl.1] at hxf
          exact hxf (List.mem_cons_self ..)
        | nil =>
          cases hA : above.flatMap F with
          | nil => rw [hA] at hy'; cases hy'
          | cons z zs =>
            rw [hA] at hl hx
            simp only [List.cons_append, List.nil_append, List.cons.injEq] at hl
            rw [hl.1] at hx
            exact hx (List.mem_cons_self ..)
      · refine (prec_overrides (.inl hk)).mp ?_
        obtain ⟨hxp, -⟩ := sameKind_entry hk (hops r hr) (hops r' hz) hline hxe (by rw [hfrom]; exact hf) (ctx.prim d).trieClasses
        rw [← hxp]
        exact hp
  rcases hfound with hm | hm
  · exact key true _ (by rw [← nocrossRules_eq]; exact hb.nocross) hm
  · exact key false _ (by rw [← trieRules_eq]; exact hb.trie) hm

/-- C14 for whole translations. -/
theorem C14_translation (sys : Sys) (table : List (Rule × Loc)) (d : Direction) (steps : List Transform)
    (h : Pipeline.Compiles sys (anchor table) d steps) (cs : Case) (spans : List Span) (input output : Text)
    (ht : Pipeline.Translates cs spans input steps output) : ∃ before p after read ts, steps = before ++ [.primary p] ++ after ∧
      Pipeline.Translates cs [] input before read ∧ p.Traces cs read spans ts ∧ Pipeline.Translates cs [] (outputOf ts) after output ∧
      ∀ tr ∈ ts, ∀ above r below, allowedRules (anchor table) d = above ++ r :: below → tr.origin = some r.origin →
        ∀ r' : Anchored, r.rule.SameKind r'.rule →
          r'.rule.IsFor (TableCtx.compile sys.alpha (allowedRules (anchor table) d)) d tr.input →
          (r' ∈ below → ¬ r'.rule.Overrides) ∧ (r' ∈ above → r.rule.Overrides) := by
  obtain ⟨before, p, after, e, hp, -, -, hk⟩ := C44_spans_main_stage sys (anchor table) d steps h
  obtain ⟨read, ts, h1, h2, h3⟩ := (hk cs spans input output).mp ht
  exact ⟨before, p, after, read, ts, e, h1, h2, h3, fun tr htr above r below hs ho r' hk hf =>
    C14_line_used hp ((anchor_distinct table).allowed d) (anchor_nodup table d).2 h2 htr above below r hs ho r' hk hf⟩

/-- Non-vacuity of C14: of two `always` lines the second is used, of two `syllable` lines the first. -/
example : SourceTranslates demoSys asciiCase "lowercase a 1\nlowercase b 12\nalways ab 3\nalways ab 4\nsyllable ba 5\nsyllable ba 6\n".toList
    .forward [] "abba".toList "⠈⠐".toList :=
  runSource_sound (fuel := 40) (by decide +kernel)

end Louis
