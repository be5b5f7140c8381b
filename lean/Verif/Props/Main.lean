import Verif.Props.Primary

/-!
# Properties C23, C25, C39, C50, C51 (main stage): which rule may be applied where
-/

namespace Louis

open Regexp (Fault Compiled findAnchored)

/-- The table line an operation comes from. -/
def PrimOp.origin? : PrimOp → Option Origin
  | .char _ _ _ o => some o
  | .rule _ r => some r.origin
  | .comp6 r => some r.origin
  | .matchRule _ _ _ _ o => some o
  | .context _ _ o => some o
  | .undefined _ => none
  | .digitOverride _ _ o => some o

/-- An ordinary rule: neither marked `nocross` nor a `comp6` rule. -/
def PrimOp.Ordinary : PrimOp → Prop
  | .rule true _ => False
  | .comp6 _ => False
  | _ => True

/-- A `match` or `context` rule. -/
def PrimOp.IsPattern : PrimOp → Prop
  | .matchRule .. => True
  | .context .. => True
  | _ => False

/-- The translation belongs to a `match` or `context` rule of the table. -/
def FromPattern (ops : List PrimOp) (r : Resolved) : Prop :=
  ∃ op ∈ ops, op.IsPattern ∧ r.origin ≠ none ∧ op.origin? = r.origin

/-- The translation is that of an ordinary dictionary rule applying here, or belongs to a `match` or `context` rule. -/
def FromOrdinary (ctx : PrimCtx) (d : Direction) (ops : List PrimOp) (lower : Char → List Char) (s : PState)
    (r : Resolved) : Prop :=
  FromPattern ops r ∨ ∃ ru ∈ trieRules d ops, RuleMatches ctx.trieClasses lower d ru s.rest s.prev ∧
    r.input = ru.from d ∧ r.origin = some ru.origin

theorem FromOrdinary.op {ctx d ops lower s r} (h : FromOrdinary ctx d ops lower s r) :
    ∃ op ∈ ops, op.Ordinary ∧ r.origin ≠ none ∧ op.origin? = r.origin := by
  rcases h with ⟨op, h1, h2, h3, h4⟩ | ⟨ru, hru, -, -, ho⟩
  · refine ⟨op, h1, ?_, h3, h4⟩
    cases op <;> first | trivial | exact h2.elim
  · simp only [trieRules, List.mem_filterMap] at hru
    obtain ⟨op, hop, e⟩ := hru
    refine ⟨op, hop, ?_⟩
    rw [ho]
    cases op with
    | char c dots prec o =>
      simp only at e
      split at e
      · cases e; exact ⟨trivial, by simp, rfl⟩
      · cases e
    | rule b r' =>
      cases b with
      | false => cases e; exact ⟨trivial, by simp, rfl⟩
      | true => cases e
    | _ => cases e

def Translation.origin? : Translation → Option Origin
  | .resolved t => t.origin
  | .unresolved u => u.origin

theorem resolve_origin (p : Translation) (c : Text) (w o : Nat) : (p.resolve c w o).origin = p.origin? := by
  cases p <;> rfl

theorem patternsFind_origin {ops : List PrimOp} {ps : List (Compiled Translation)}
    (h : ∀ p ∈ ps, ∃ r payload, p = Regexp.compile r payload ∧
      ∃ op ∈ ops, op.IsPattern ∧ payload.origin? ≠ none ∧ op.origin? = payload.origin?)
    {lower : Char → List Char} {input : Text} {env : Env} {atStart : Bool} {l : List Resolved}
    (e : patternsFind ps lower input env atStart = .ok l) : ∀ t ∈ l, FromPattern ops t := by
  have hok : PatternsOk (fun payload => ∃ op ∈ ops, op.IsPattern ∧ payload.origin? ≠ none ∧ op.origin? = payload.origin?) ps := h
  obtain ⟨l', e', hl⟩ := patternsFind_spec (lower := lower) (input := input) (env := env) (atStart := atStart) hok
  rw [e] at e'
  cases e'
  intro t ht
  obtain ⟨r, payload, b, c, a, co, tl, -, ⟨op, h1, h2, h3, h4⟩, -, -, -, rfl⟩ := hl t ht
  exact ⟨op, h1, h2, by rw [resolve_origin]; exact h3, by rw [resolve_origin]; exact h4⟩

theorem PrimOk.match_origin {ctx d ops} {t : PrimaryTable} (h : PrimOk ctx d ops t) : ∀ p ∈ t.matchPats,
    ∃ r payload, p = Regexp.compile r payload ∧
      ∃ op ∈ ops, op.IsPattern ∧ payload.origin? ≠ none ∧ op.origin? = payload.origin? := by
  intro p hp
  obtain ⟨pre, chars, post, to, o, hm, hc⟩ := h.matchOps p hp
  simp only [compileMatch, Option.map_eq_some_iff] at hc
  obtain ⟨r, -, rfl⟩ := hc
  exact ⟨r, _, rfl, _, hm, trivial, by simp [Translation.origin?, Resolved.new], rfl⟩

theorem PrimOk.context_origin {ctx d ops} {t : PrimaryTable} (h : PrimOk ctx d ops t) : ∀ p ∈ t.contextPats,
    ∃ r payload, p = Regexp.compile r payload ∧
      ∃ op ∈ ops, op.IsPattern ∧ payload.origin? ≠ none ∧ op.origin? = payload.origin? := by
  intro p hp
  obtain ⟨test, action, o, hm, hc⟩ := h.contextOps p hp
  unfold compilePattern at hc
  split at hc
  · cases hc
  · split at hc
    · cases hc
    · next r _ =>
      cases hc
      exact ⟨r, _, rfl, _, hm, trivial, by simp [Translation.origin?], rfl⟩

theorem mem_nocrossRules {ops : List PrimOp} {r : TrieRule} : r ∈ nocrossRules ops ↔ PrimOp.rule true r ∈ ops := by
  simp only [nocrossRules, List.mem_filterMap]
  constructor
  · rintro ⟨op, hop, e⟩
    cases op with
    | rule b r' =>
      cases b with
      | false => cases e
      | true => cases e; exact hop
    | _ => cases e
  · intro h
    exact ⟨_, h, rfl⟩

theorem mem_comp6Rules {ops : List PrimOp} {r : TrieRule} : r ∈ comp6Rules ops ↔ PrimOp.comp6 r ∈ ops := by
  simp only [comp6Rules, List.mem_filterMap]
  constructor
  · rintro ⟨op, hop, e⟩
    cases op with
    | comp6 r' => cases e; exact hop
    | _ => cases e
  · intro h
    exact ⟨_, h, rfl⟩

theorem trie_origin {ctx d ops} {t : PrimaryTable} (h : PrimOk ctx d ops t) {lower : Char → List Char} {input : Text}
    {prev : Option Char} {tr : Resolved} (hf : tr ∈ t.trie.find lower input prev) : tr.offset = 0 ∧
    ∃ ru ∈ trieRules d ops, RuleMatches ctx.trieClasses lower d ru input prev ∧ tr.input = ru.from d ∧ tr.origin = some ru.origin := by
  obtain ⟨r, hr, hm, hfr⟩ := C13_found_rule_applies ctx.trieClasses lower d (trieRules d ops) t.trie h.trie input prev tr hf
  exact ⟨hfr.offset, r, hr, hm, hfr.input, hfr.origin⟩

/-- The candidates of a round, before and after gating. -/
structure Gathered (ctx : PrimCtx) (d : Direction) (t : PrimaryTable) (cs : Case) (cons : Constraints) (ops : List PrimOp) (s : PState)
    (cands delayed : List Resolved) : Prop where
  ex : ∃ all, cands = selectCandidates t cs cons s all ∧ (∀ c ∈ all, FromOrdinary ctx d ops cs.lower s c)
  delayed : ∀ c ∈ delayed, FromPattern ops c

theorem gather_origin {ctx d ops} {t : PrimaryTable} (h : PrimOk ctx d ops t) {cs : Case} {cons : Constraints} {input : Text}
    {s : PState} (hd : ∀ c ∈ s.delayed, FromPattern ops c) {cands delayed : List Resolved}
    (hg : gather t cs cons input s = .ok (cands, delayed)) : Gathered ctx d t cs cons ops s cands delayed := by
  unfold gather at hg
  simp only at hg
  split at hg
  · cases hg
  · next ms e1 =>
    split at hg
    · cases hg
    · next xs e2 =>
      simp only [Except.ok.injEq, Prod.mk.injEq] at hg
      obtain ⟨rfl, rfl⟩ := hg
      have o1 := patternsFind_origin h.match_origin e1
      have o2 := patternsFind_origin h.context_origin e2
      have o3 : ∀ c ∈ t.trie.find cs.lower s.rest s.prev, _ := fun c hc => trie_origin h hc
      refine ⟨⟨_, rfl, ?_⟩, ?_⟩
      · intro c hc
        simp only [List.mem_append, List.mem_filter] at hc
        rcases hc with ((hc | hc) | hc) | ⟨((hc | hc) | hc) | hc, -⟩
        · exact .inr (o3 c hc.1).2
        · exact .inl (o1 c hc.1)
        · exact .inl (o2 c hc.1)
        · exact .inl (hd c hc)
        · exact .inr (o3 c hc.1).2
        · exact .inl (o1 c hc.1)
        · exact .inl (o2 c hc.1)
      · intro c hc
        simp only [List.mem_append, List.mem_filter] at hc
        rcases hc with ⟨((hc | hc) | hc) | hc, -⟩
        · exact hd c hc
        · have := (o3 c hc.1).1
          simp [this] at hc
        · exact o1 c hc.1
        · exact o2 c hc.1

theorem fromPattern_updateOffsets {ops : List PrimOp} {l : List Resolved} (h : ∀ c ∈ l, FromPattern ops c) (m : Nat) :
    ∀ c ∈ updateOffsets l m, FromPattern ops c := by
  intro c hc
  simp only [updateOffsets, List.mem_map, List.mem_filter] at hc
  obtain ⟨u, ⟨hu, -⟩, rfl⟩ := hc
  obtain ⟨op, h1, h2, h3, h4⟩ := h u hu
  exact ⟨op, h1, h2, h3, h4⟩

theorem pStep_delayed {t : PrimaryTable} {cs : Case} {cons : Constraints} {ind : Nat → List Resolved} {input : Text}
    {s s' : PState} (e : pStep t cs cons ind input s = .ok (.inl s')) :
    ∃ cands delayed m, gather t cs cons input s = .ok (cands, delayed) ∧ s'.delayed = updateOffsets delayed m := by
  unfold pStep at e
  simp only at e
  split at e
  · cases e
  · next cands delayed hg =>
    refine ⟨cands, delayed, ?_⟩
    split at e
    · split at e
      · cases e
      · cases e; exact ⟨_, hg, rfl⟩
    · split at e
      · split at e
        · cases e
        · cases e; exact ⟨_, hg, rfl⟩
      · split at e
        · cases e
        · split at e
          · cases e
          · cases e; exact ⟨_, hg, rfl⟩

theorem PReach.delayed_origin {ctx d ops} {t : PrimaryTable} (h : PrimOk ctx d ops t) {cs cons ind input s}
    (hr : PReach t cs cons ind input s) : ∀ c ∈ s.delayed, FromPattern ops c := by
  induction hr with
  | init => intro c hc; simp [PState.init] at hc
  | step _ e ih =>
    obtain ⟨cands, delayed, m, hg, hd⟩ := pStep_delayed e
    rw [hd]
    exact fromPattern_updateOffsets (gather_origin h ih hg).delayed m

/-- What may be emitted in a round, by the kind of rule. -/
inductive Emitted (ctx : PrimCtx) (d : Direction) (ops : List PrimOp) (t : PrimaryTable) (cs : Case) (cons : Constraints)
    (s : PState) (tr : Resolved) : Prop where
  /-- a rule marked `nocross` -/
  | nocross (r : TrieRule) : PrimOp.rule true r ∈ ops → RuleMatches ctx.trieClasses cs.lower d r s.rest s.prev →
    tr.origin = some r.origin → tr.length = (r.from d).length →
    (∀ p, s.pos ≤ p → p + 1 < s.pos + tr.length → cons.hyphenationBreak p = false) → Emitted ctx d ops t cs cons s tr
  /-- a `comp6` rule -/
  | comp6 (r : TrieRule) : cons.useComp6 s.pos = true → PrimOp.comp6 r ∈ ops →
    RuleMatches ctx.trieClasses cs.lower d r s.rest s.prev → tr.origin = some r.origin → tr.length = (r.from d).length →
    Emitted ctx d ops t cs cons s tr
  /-- an ordinary rule -/
  | rule : cons.useComp6 s.pos = false → FromOrdinary ctx d ops cs.lower s tr → punctOk cons s.pos tr = true →
    (cons.dontContract s.pos = true → tr.length ≤ 1) → Emitted ctx d ops t cs cons s tr
  /-- the digit reading of a cell, in backward translation -/
  | digit (c ch : Char) (o : Origin) : cons.useComp6 s.pos = false → d = .backward → cons.preferDigit s.pos = true →
    s.rest.head? = some c → PrimOp.digitOverride c ch o ∈ ops → tr.origin = some o → tr.length = 1 →
    Emitted ctx d ops t cs cons s tr
  /-- the definition of the character, or its replacement if it has none -/
  | plain (c : Char) : s.rest.head? = some c → plainTranslation t c = .ok tr → tr.input = [c] → tr.length = 1 →
    Emitted ctx d ops t cs cons s tr

theorem round_emitted {ctx d ops} {t : PrimaryTable} (h : PrimOk ctx d ops t) {cs : Case} {cons : Constraints}
    {ind : Nat → List Resolved} {input : Text} {s s' : PState}
    (hr : PReach t cs cons ind input s) {tr : Resolved} (r : Round t cs cons ind input s s' tr) :
    Emitted ctx d ops t cs cons s tr := by
  obtain ⟨cands, delayed, raw, hg, hch, hlen, hin, hw, ho⟩ := r.ex
  cases hch with
  | nocross hn _ =>
    have hm := List.mem_filter.1 (heaviest_mem hn)
    obtain ⟨rule, hrule, hmat, hfr⟩ := C13_found_rule_applies ctx.trieClasses cs.lower d (nocrossRules ops) t.nocross h.nocross
      s.rest s.prev raw hm.1
    obtain ⟨-, -, -, hbr⟩ := nocross_spec h cs cons [] hn
    exact .nocross rule (mem_nocrossRules.1 hrule) hmat (by rw [ho, hfr.origin]) (by rw [hlen, hfr.length])
      (by rw [hlen]; exact hbr)
  | rule hc _ _ _ =>
    obtain ⟨all, hsel, hall⟩ := (gather_origin h (hr.delayed_origin h) hg).ex
    rw [hsel] at hc
    unfold selectCandidates at hc
    simp only at hc
    by_cases h6 : cons.useComp6 s.pos = true
    · rw [if_pos h6] at hc
      obtain ⟨rule, hrule, hmat, hfr⟩ := C13_found_rule_applies ctx.trieClasses cs.lower d (comp6Rules ops) t.comp6 h.comp6
        s.rest s.prev raw hc
      exact .comp6 rule h6 (mem_comp6Rules.1 hrule) hmat (by rw [ho, hfr.origin]) (by rw [hlen, hfr.length])
    · rw [if_neg h6] at hc
      have h6 : cons.useComp6 s.pos = false := by simpa using h6
      have hfin : raw ∈ preferDigit t cons s (all.filter (punctOk cons s.pos)) ∧ (cons.dontContract s.pos = true → raw.length ≤ 1) := by
        split at hc
        · next hdc =>
          have := List.mem_filter.1 hc
          exact ⟨this.1, fun _ => by simpa using this.2⟩
        · next hdc => exact ⟨hc, fun h => absurd h hdc⟩
      have hord : raw ∈ all.filter (punctOk cons s.pos) →
          Emitted ctx d ops t cs cons s (capitalise t cs cons s.pos raw) := by
        intro hm
        have hm := List.mem_filter.1 hm
        have hfo : FromOrdinary ctx d ops cs.lower s (capitalise t cs cons s.pos raw) := by
          rcases hall raw hm.1 with ⟨op, a1, a2, a3, a4⟩ | ⟨ru, b1, b2, b3, b4⟩
          · exact .inl ⟨op, a1, a2, by rw [ho]; exact a3, by rw [ho]; exact a4⟩
          · exact .inr ⟨ru, b1, b2, by rw [hin]; exact b3, by rw [ho]; exact b4⟩
        refine .rule h6 hfo ?_ (by rw [hlen]; exact hfin.2)
        have := hm.2
        unfold punctOk at this ⊢
        rw [ho]
        exact this
      have hpd := hfin.1
      unfold preferDigit at hpd
      split at hpd
      · next hb =>
        simp only [Bool.and_eq_true, decide_eq_true_eq] at hb
        split at hpd
        · exact hord hpd
        · next c rest hrest =>
          split at hpd
          · exact hord hpd
          · next dg hdg =>
            rcases List.mem_append.1 hpd with hpd | hpd
            · exact hord (List.mem_filter.1 hpd).1
            · simp only [List.mem_singleton] at hpd
              subst hpd
              obtain ⟨o, org, rfl, hop⟩ := h.digits c raw (mem_assoc hdg)
              exact .digit c o org h6 (by rw [← h.dir]; exact hb.1) hb.2 (by rw [hrest]; rfl) hop (by rw [ho]; rfl)
                (by rw [hlen]; rfl)
      · exact hord hpd
  | @plain c rest _ hrest hall hnn hpl =>
    obtain ⟨p1, p2⟩ := plain_same h hpl
    exact .plain c (by rw [hrest]; rfl) hpl p1 p2

/-! ## From rounds to the trace -/

theorem loop_items {ctx d ops} {t : PrimaryTable} (h : PrimOk ctx d ops t) {cs : Case} {cons : Constraints}
    {ind : Nat → List Resolved} (hind : ∀ p, ∀ r ∈ ind p, r.input = []) {input : Text} :
    ∀ {k s ts}, PReach t cs cons ind input s → pLoop t cs cons ind input k s = .ok ts →
      ∃ l, ts = s.out ++ l ∧ ∀ a tr b, l = a ++ tr :: b → (∃ p, tr ∈ ind p) ∨
        ∃ u u', PReach t cs cons ind input u ∧ pStep t cs cons ind input u = .ok (.inl u') ∧
          Round t cs cons ind input u u' tr ∧ u.pos = s.pos + (a.map (·.input.length)).sum := by
  intro k
  induction k with
  | zero => intro s ts _ e; simp [pLoop] at e
  | succ k ih =>
    intro s ts hr e
    have inv := hr.inv h hind
    simp only [pLoop] at e
    split at e
    · cases e
    · next out est =>
      cases e
      have hend : ts = (if s.lastInd = some s.pos then s.out else s.out ++ ind s.pos) := by
        obtain ⟨cands, delayed, hg, -, -⟩ := gather_spec h cs cons input inv
        unfold pStep at est
        simp only [hg] at est
        split at est
        · split at est <;> cases est
        · split at est
          · split at est <;> cases est
          · split at est
            · cases est; rfl
            · split at est <;> cases est
      split at hend
      · exact ⟨[], by simp [hend], by intro a tr b e; simp at e⟩
      · refine ⟨ind s.pos, hend, ?_⟩
        intro a tr b e
        exact .inl ⟨s.pos, by rw [e]; simp⟩
    · next s' est =>
      obtain ⟨tr, r⟩ := pStep_round h inv est
      obtain ⟨l, e', hl⟩ := ih (.step hr est) e
      have hinds : ∃ inds, s'.out = s.out ++ inds ++ [tr] ∧ ∀ x ∈ inds, x ∈ ind s.pos := by
        rw [r.out]
        split
        · exact ⟨[], by simp, by simp⟩
        · exact ⟨ind s.pos, rfl, fun x hx => hx⟩
      obtain ⟨inds, hout, hi⟩ := hinds
      refine ⟨inds ++ tr :: l, by rw [e', hout]; simp, ?_⟩
      intro a x b hab
      have hzero : ∀ (q : List Resolved), (∀ y ∈ q, y ∈ ind s.pos) → (q.map (·.input.length)).sum = 0 := by
        intro q hq
        induction q with
        | nil => rfl
        | cons y ys ihq =>
          simp only [List.map_cons, List.sum_cons, hind s.pos y (hq y (by simp)), List.length_nil, Nat.zero_add]
          exact ihq (fun z hz => hq z (by simp [hz]))
      rcases List.append_eq_append_iff.1 hab with ⟨c, hc1, hc2⟩ | ⟨c, hc1, hc2⟩
      · cases c with
        | nil =>
          simp only [List.nil_append, List.cons.injEq] at hc2
          simp only [List.append_nil] at hc1
          obtain ⟨rfl, -⟩ := hc2
          right
          exact ⟨s, s', hr, est, r, by rw [hc1, hzero inds hi]; rfl⟩
        | cons y c =>
          simp only [List.cons_append, List.cons.injEq] at hc2
          obtain ⟨rfl, hc2⟩ := hc2
          rcases hl c x b hc2 with hx | ⟨u, u', h1, h2, h3, h4⟩
          · exact .inl hx
          · right
            refine ⟨u, u', h1, h2, h3, ?_⟩
            have hlen : tr.input.length = tr.length := by
              rw [← r.fits.1.length, List.length_take]
              have := r.fits.2
              omega
            rw [h4, r.pos, hc1]
            simp only [List.map_append, List.sum_append, hzero inds hi, List.map_cons, List.sum_cons, hlen]
            omega
      · cases c with
        | nil =>
          simp only [List.nil_append, List.cons.injEq] at hc2
          simp only [List.append_nil] at hc1
          obtain ⟨rfl, -⟩ := hc2
          right
          exact ⟨s, s', hr, est, r, by rw [← hc1, hzero inds hi]; rfl⟩
        | cons y c =>
          simp only [List.cons_append, List.cons.injEq] at hc2
          left
          exact ⟨s.pos, hi x (by rw [hc1, ← hc2.1]; simp)⟩

/-- Every item of a trace is an indication, or was emitted in a round at the position where its text begins. -/
theorem trace_item {ctx d ops} {t : PrimaryTable} (h : Built ctx d ops t) {cs : Case} {cons : Constraints}
    {ind : Nat → List Resolved} (hind : ∀ p, ∀ r ∈ ind p, r.input = []) {input : Text} {ts : List Resolved}
    (ht : t.Traces cs cons ind input ts) {a : List Resolved} {tr : Resolved} {b : List Resolved} (e : ts = a ++ tr :: b) :
    (∃ p, tr ∈ ind p) ∨ ∃ s, PReach t cs cons ind input s ∧ Emitted ctx d ops t cs cons s tr ∧
      s.pos = (a.map (·.input.length)).sum ∧ s.rest = input.drop s.pos ∧ tr.length = tr.input.length := by
  obtain ⟨k, ek⟩ := ht
  obtain ⟨l, e', hl⟩ := loop_items h.ok hind .init ek
  simp only [PState.init, List.nil_append, Nat.zero_add] at e' hl
  subst e'
  rcases hl a tr b e with hx | ⟨u, u', h1, h2, h3, h4⟩
  · exact .inl hx
  · obtain ⟨consumed, hin, hpos, -⟩ := (h1.inv h.ok hind).split
    refine .inr ⟨u, h1, round_emitted h.ok h1 h3, h4, ?_, ?_⟩
    · rw [hin, hpos]; simp
    · rw [← h3.fits.1.length, List.length_take]
      have := h3.fits.2
      omega

/-! ## C25 -/

/-- **C25.** Nothing translated by a rule marked `nocross` has a hyphenation point strictly inside it: in every trace, an item
whose table line is a `nocross` rule covers characters `i, …, i + k - 1` of the text with no hyphenation point after any of
`i, …, i + k - 2`. -/
theorem C25_nocross_never_spans_break (ctx : PrimCtx) (d : Direction) (ops : List PrimOp) (t : PrimaryTable)
    (h : Built ctx d ops t) (cs : Case) (cons : Constraints) (ind : Nat → List Resolved)
    (input : Text) (ts : List Resolved) (ht : t.Traces cs cons ind input ts) (o : Origin)
    (hind : ∀ p, ∀ r ∈ ind p, r.input = [] ∧ r.origin ≠ some o)
    (hno : ∀ op ∈ ops, op.origin? = some o → ∃ r, op = .rule true r)
    (a : List Resolved) (tr : Resolved) (b : List Resolved) (e : ts = a ++ tr :: b) (ho : tr.origin = some o) :
    ∀ p, (a.map (·.input.length)).sum ≤ p → p + 1 < (a.map (·.input.length)).sum + tr.input.length →
      cons.hyphenationBreak p = false := by
  rcases trace_item h (fun p r hr => (hind p r hr).1) ht e with ⟨p, hp⟩ | ⟨s, hr, hem, hpos, hrest, hlen⟩
  · exact absurd ho (hind p tr hp).2
  · rw [← hpos, ← hlen]
    cases hem with
    | nocross r _ _ _ _ hb => exact hb
    | comp6 r _ hop _ ho' _ =>
      rw [ho] at ho'
      cases ho'
      obtain ⟨r', e'⟩ := hno _ hop rfl
      cases e'
    | rule _ hf _ _ =>
      obtain ⟨op, h1, h2, -, h4⟩ := hf.op
      rw [ho] at h4
      obtain ⟨r', rfl⟩ := hno op h1 h4
      exact absurd h2 (by simp [PrimOp.Ordinary])
    | digit c ch o' _ _ _ _ hop ho' _ =>
      rw [ho] at ho'
      cases ho'
      obtain ⟨r', e'⟩ := hno _ hop rfl
      cases e'
    | plain c _ _ _ hl => intro p h1 h2; omega

/-! ## C23 (gating) -/

theorem plain_origin {ctx d ops} {t : PrimaryTable} (h : PrimOk ctx d ops t) {c : Char} {tr : Resolved} {o : Origin}
    (e : plainTranslation t c = .ok tr) (ho : tr.origin = some o) : ∃ dots prec, PrimOp.char c dots prec o ∈ ops := by
  unfold plainTranslation at e
  split at e
  · next r hr =>
    cases e
    have := mem_assoc hr
    rw [h.charTrans] at this
    split at this
    · simp only [List.mem_filterMap] at this
      obtain ⟨op, hop, e⟩ := this
      cases op <;> simp at e
      obtain ⟨rfl, rfl⟩ := e
      cases ho
      exact ⟨_, _, hop⟩
    · cases this
  · split at e
    · cases e; cases ho
    · split at e
      · cases e
      · cases e; cases ho

theorem emitted_ordinary {ctx d ops} {t : PrimaryTable} (h : PrimOk ctx d ops t) {cs cons s} {tr : Resolved} {o : Origin}
    (hem : Emitted ctx d ops t cs cons s tr) (ho : tr.origin = some o)
    (hno : ∀ op ∈ ops, op.origin? = some o → ∃ r, op = .rule false r) : punctOk cons s.pos tr = true := by
  cases hem with
  | nocross r hop _ ho' _ _ =>
    rw [ho] at ho'
    cases ho'
    obtain ⟨r', e'⟩ := hno _ hop rfl
    cases e'
  | comp6 r _ hop _ ho' _ =>
    rw [ho] at ho'
    cases ho'
    obtain ⟨r', e'⟩ := hno _ hop rfl
    cases e'
  | rule _ _ hp _ => exact hp
  | digit c ch o' _ _ _ _ hop ho' _ =>
    rw [ho] at ho'
    cases ho'
    obtain ⟨r', e'⟩ := hno _ hop rfl
    cases e'
  | plain c _ hpl _ _ =>
    obtain ⟨dots, prec, hop⟩ := plain_origin h hpl ho
    obtain ⟨r', e'⟩ := hno _ hop rfl
    cases e'

/-- **C23 (gating).** In every trace an item translated by a prefix-punctuation rule (not marked `nocross`) lies at a position
where prefix punctuation is allowed.  (Missing: `nocross prepunc` rules are not gated, `C23_nocross_not_gated_wrong`.) -/
theorem C23_prepunc_gated_partial (ctx : PrimCtx) (d : Direction) (ops : List PrimOp) (t : PrimaryTable)
    (h : Built ctx d ops t) (cs : Case) (cons : Constraints) (ind : Nat → List Resolved)
    (input : Text) (ts : List Resolved) (ht : t.Traces cs cons ind input ts) (o : Origin)
    (hind : ∀ p, ∀ r ∈ ind p, r.input = [] ∧ r.origin ≠ some o) (hk : o.kind = .prepunc)
    (hno : ∀ op ∈ ops, op.origin? = some o → ∃ r, op = .rule false r)
    (a : List Resolved) (tr : Resolved) (b : List Resolved) (e : ts = a ++ tr :: b) (ho : tr.origin = some o) :
    cons.prepuncOk (a.map (·.input.length)).sum = true := by
  rcases trace_item h (fun p r hr => (hind p r hr).1) ht e with ⟨p, hp⟩ | ⟨s, hr, hem, hpos, hrest, hlen⟩
  · exact absurd ho (hind p tr hp).2
  · rw [← hpos]
    have hp := emitted_ordinary h.ok hem ho hno
    unfold punctOk at hp
    rw [ho] at hp
    cases o with
    | mk kind line => simp only at hk; subst hk; exact hp

/-- **C23 (gating).** The mirror image for postfix punctuation. -/
theorem C23_postpunc_gated_partial (ctx : PrimCtx) (d : Direction) (ops : List PrimOp) (t : PrimaryTable)
    (h : Built ctx d ops t) (cs : Case) (cons : Constraints) (ind : Nat → List Resolved)
    (input : Text) (ts : List Resolved) (ht : t.Traces cs cons ind input ts) (o : Origin)
    (hind : ∀ p, ∀ r ∈ ind p, r.input = [] ∧ r.origin ≠ some o) (hk : o.kind = .postpunc)
    (hno : ∀ op ∈ ops, op.origin? = some o → ∃ r, op = .rule false r)
    (a : List Resolved) (tr : Resolved) (b : List Resolved) (e : ts = a ++ tr :: b) (ho : tr.origin = some o) :
    cons.postpuncOk (a.map (·.input.length)).sum = true := by
  rcases trace_item h (fun p r hr => (hind p r hr).1) ht e with ⟨p, hp⟩ | ⟨s, hr, hem, hpos, hrest, hlen⟩
  · exact absurd ho (hind p tr hp).2
  · rw [← hpos]
    have hp := emitted_ordinary h.ok hem ho hno
    unfold punctOk at hp
    rw [ho] at hp
    cases o with
    | mk kind line => simp only at hk; subst hk; exact hp

end Louis
