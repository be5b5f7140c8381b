import Verif.Spec.Explain
import Verif.Props.Origins
import Verif.Props.RulesTrace
import Verif.Props.Main
import Verif.Props.Passes

/-!
# C56: everything the main stage writes is explained by a line of the table
-/

namespace Louis

open Regexp (Fault Compiled findAnchored utf8Len utf8Len_append)

/-! ## Patterns that were found here or are held for this position -/

/-- A `match` rule fits the text so that its characters stand at `pos`: from a place the stage went through, the text reads
as the pre-pattern, the characters and the post-pattern. -/
structure MatchHere (cl : CharClasses) (lower : Char → List Char) (input : Text) (done : List Resolved) (pre : List Pattern)
    (chars : Text) (post : List Pattern) (pos : Nat) : Prop where
  ex : ∃ earlier later x y z, done = earlier ++ later ∧ pos = coveredBy earlier + x.length ∧
    MatchReads cl lower (decide (coveredBy earlier = 0)) pre chars post (input.drop (coveredBy earlier)) x y z

/-- A `context` rule fits the text so that its bracketed part stands at `pos` and reads `y`: from a place the stage went
through, with the variables as the pieces written until then left them. -/
structure ContextHere (cl : CharClasses) (input : Text) (done : List Resolved) (test : List TestInstr) (y : Text) (pos : Nat) :
    Prop where
  ex : ∃ before inside after, Parts test before inside after ∧
    ∃ earlier later env x z, done = earlier ++ later ∧ Env.new.applyAll (earlier.flatMap (·.effects)) = .ok env ∧
      pos = coveredBy earlier + x.length ∧
      TestReads cl env (decide (coveredBy earlier = 0)) before inside after (input.drop (coveredBy earlier)) x y z

theorem MatchHere.more {cl lower input done pre chars post pos} (h : MatchHere cl lower input done pre chars post pos)
    (l : List Resolved) : MatchHere cl lower input (done ++ l) pre chars post pos := by
  obtain ⟨a, b, x, y, z, rfl, h1, h2⟩ := h.ex
  exact ⟨a, b ++ l, x, y, z, by simp, h1, h2⟩

theorem ContextHere.more {cl input done test y pos} (h : ContextHere cl input done test y pos)
    (l : List Resolved) : ContextHere cl input (done ++ l) test y pos := by
  obtain ⟨p, q, r, hp, a, b, env, x, z, rfl, h1, h2⟩ := h.ex
  exact ⟨p, q, r, hp, a, b ++ l, env, x, z, by simp, h1, h2⟩

/-- The tests and actions of a `context` rule covered by `C52_rule_semantics_partial`. -/
def ContextSupported (test : List TestInstr) (action : List ActionInstr) : Prop :=
  (∃ before inside after, Parts test before inside after ∧ ∀ env, ∀ t ∈ before ++ inside ++ after, Supported env t) ∧ NoStep action

/-- The candidate belongs to a `match` or `context` rule that fits the text with its replaced part at `pos`. -/
inductive Held (ctx : PrimCtx) (ops : List PrimOp) (lower : Char → List Char) (input : Text) (done : List Resolved) (pos : Nat)
    (c : Resolved) : Prop where
  | matched (pre chars post to o) : PrimOp.matchRule pre chars post to o ∈ ops → c.origin = some o → c.input = chars →
    c.output = to → c.length = chars.length → c.effects = [] →
    (PAllSupported pre → PAllSupported post → MatchHere ctx.classes lower input done pre chars post pos) →
    Held ctx ops lower input done pos c
  | context (test action o) : PrimOp.context test action o ∈ ops → c.origin = some o →
    (TestsWritten test → NoStep action → Writes ctx.swaps c.input action c.output ∧ Asks action c.effects ∧
      c.length = c.input.length) →
    (ContextSupported test action → ContextHere ctx.classes input done test c.input pos ∧ Writes ctx.swaps c.input action c.output ∧
      Asks action c.effects ∧ c.length = c.input.length) →
    Held ctx ops lower input done pos c

theorem Held.more {ctx ops lower input done pos c} (h : Held ctx ops lower input done pos c) (l : List Resolved) :
    Held ctx ops lower input (done ++ l) pos c := by
  cases h with
  | matched pre chars post to o h1 h2 h3 h4 h5 h6 h7 =>
    exact .matched pre chars post to o h1 h2 h3 h4 h5 h6 (fun a b => (h7 a b).more l)
  | context test action o h1 h2 h0 h3 => exact .context test action o h1 h2 h0 (fun a => ⟨(h3 a).1.more l, (h3 a).2⟩)

theorem Held.offset {ctx ops lower input done pos} {c : Resolved} (h : Held ctx ops lower input done pos c) (n : Nat) :
    Held ctx ops lower input done pos { c with offset := n } := by
  cases h with
  | matched pre chars post to o h1 h2 h3 h4 h5 h6 h7 => exact .matched pre chars post to o h1 h2 h3 h4 h5 h6 h7
  | context test action o h1 h2 h0 h3 => exact .context test action o h1 h2 h0 h3

/-- The state of the loop: what was written covers the text before the position, and the variables are as it left them. -/
structure Tracked (input : Text) (s : PState) : Prop where
  pos : s.pos = coveredBy s.out
  rest : s.rest = input.drop s.pos
  le : s.pos ≤ input.length
  prev : s.prev = (s.out.flatMap (·.input)).getLast?
  env : Env.new.applyAll (s.out.flatMap (·.effects)) = .ok s.env

theorem atStart_eq {input : Text} {s : PState} (h : Tracked input s) :
    (utf8Len s.rest == utf8Len input) = decide (coveredBy s.out = 0) := by
  have hl := h.le
  rw [h.rest, h.pos] at *
  generalize coveredBy s.out = n at *
  have e : input = input.take n ++ input.drop n := (List.take_append_drop n input).symm
  have : utf8Len input = utf8Len (input.take n) + utf8Len (input.drop n) := by rw [← utf8Len_append, ← e]
  rw [this]
  cases n with
  | zero => simp [Regexp.utf8Len]
  | succ n =>
    cases input with
    | nil => simp at hl
    | cons a u =>
      have := Char.utf8Size_pos a
      simp only [List.take_succ_cons, Regexp.utf8Len]
      simp
      omega

variable {ctx : PrimCtx} {d : Direction} {ops : List PrimOp} {t : PrimaryTable} {cs : Case} {cons : Constraints}
  {ind : Nat → List Resolved} {input : Text}


theorem payload_found {r : Regexp.Regexp} {payload : Translation} {lower : Char → List Char} {text : Text} {env : Env} {b : Bool}
    {f : Regexp.Found Translation} (hf : findAnchored (Regexp.compile r payload) lower text env b = .ok (some f)) :
    f.payload = payload := by
  obtain ⟨res, e1, -, e2⟩ := Regexp.findAnchored_spec r payload lower text env b
  rw [hf] at e1
  injection e1 with e1
  subst e1
  obtain ⟨_, _, _, _, _, _, _, _, h⟩ := e2 f rfl
  grind

theorem found_match (h : PrimOk ctx d ops t) {s : PState} (hs : Tracked input s) {l : List Resolved}
    (hf : patternsFind t.matchPats cs.lower s.rest Env.new (utf8Len s.rest == utf8Len input) = .ok l) :
    ∀ c ∈ l, Held ctx ops cs.lower input s.out (s.pos + c.offset) c := by
  intro c hc
  obtain ⟨p, hp, f, hf, rfl⟩ := patternsFind_mem hf c hc
  obtain ⟨pre, chars, post, to, o, hm, hcm⟩ := h.matchOps p hp
  have hpay : f.payload = .resolved (Resolved.new chars to 0 .main (some o)) := by
    simp only [compileMatch, Option.map_eq_some_iff] at hcm
    obtain ⟨r, -, rfl⟩ := hcm
    exact payload_found hf
  rw [atStart_eq hs] at hf
  refine .matched pre chars post to o hm (by rw [hpay]; rfl) (by rw [hpay]; rfl) (by rw [hpay]; rfl) (by rw [hpay]; rfl)
    (by rw [hpay]; rfl) (fun h1 h2 => ?_)
  obtain ⟨x, y, z, g1, g2, g3, g4⟩ :=
    (C53_match_semantics_partial ctx.classes pre chars post to o p hcm h1 h2 cs.lower s.rest Env.new _).2 f hf
  rw [g4]
  refine ⟨s.out, [], x, y, z, by simp, by rw [hs.pos], ?_⟩
  rw [← hs.pos, ← hs.rest]
  rw [hs.pos]
  exact g1

theorem found_context (h : PrimOk ctx d ops t) {s : PState} (hs : Tracked input s) {l : List Resolved}
    (hf : patternsFind t.contextPats cs.lower s.rest s.env (utf8Len s.rest == utf8Len input) = .ok l) :
    ∀ c ∈ l, Held ctx ops cs.lower input s.out (s.pos + c.offset) c := by
  intro c hc
  obtain ⟨p, hp, f, hf, rfl⟩ := patternsFind_mem hf c hc
  obtain ⟨test, action, o, hm, hcm⟩ := h.contextOps p hp
  have hor : (f.payload.resolve f.capture f.length f.offset).origin = some o := by
    have hcm := hcm
    unfold compilePattern at hcm
    split at hcm
    · cases hcm
    · split at hcm
      · cases hcm
      · cases hcm
        rw [resolve_origin, payload_found hf]
        rfl
  rw [atStart_eq hs] at hf
  refine .context test action o hm hor (fun hw ha => ?_) ?_
  · have := C71_line_exact ctx.classes ctx.swaps .main .default o test action p hcm hw ha cs.lower s.rest s.env
      (decide (coveredBy s.out = 0))
    split at this
    · rw [hf] at this; cases this
    · obtain ⟨f', out, es, k1, k2, k3, k4⟩ := this
      rw [hf] at k1
      cases k1
      rw [k4]
      exact ⟨k2, k3, rfl⟩
  rintro ⟨⟨before, inside, after, hparts, hsup⟩, hact⟩
  obtain ⟨x, y, z, out, es, g1, g2, g3, g4, g5⟩ :=
    (C52_rule_semantics_partial ctx.classes ctx.swaps .main .default o test action p hcm before inside after hparts cs.lower
      s.rest s.env _ (hsup s.env) hact).2 f hf
  rw [g5]
  refine ⟨⟨before, inside, after, hparts, s.out, [], s.env, x, z, by simp, hs.env, by rw [hs.pos], ?_⟩, g3, g4, rfl⟩
  rw [← hs.pos, ← hs.rest, hs.pos]
  exact g1


/-! ## One round -/

theorem capitalise_effects (t : PrimaryTable) (cs : Case) (cons : Constraints) (p : Nat) (r : Resolved) :
    (capitalise t cs cons p r).effects = r.effects := by
  unfold capitalise
  split
  · rfl
  · split <;> rfl

theorem plain_effects (h : PrimOk ctx d ops t) {c : Char} {r : Resolved} (e : plainTranslation t c = .ok r) : r.effects = [] := by
  unfold plainTranslation at e
  split at e
  · next r' hr =>
    cases e
    obtain ⟨_, _, rfl⟩ := h.charTrans_input hr
    rfl
  · split at e
    · cases e; rfl
    · split at e
      · cases e
      · cases e; rfl

/-- What a round does to the variables and to the candidates that wait. -/
theorem pStep_env (h : PrimOk ctx d ops t) {s s' : PState} (e : pStep t cs cons ind input s = .ok (.inl s')) :
    ∃ cands delayed tr, gather t cs cons input s = .ok (cands, delayed) ∧
      s'.out = (if s.lastInd = some s.pos then s.out else s.out ++ ind s.pos) ++ [tr] ∧
      s.env.applyAll tr.effects = .ok s'.env ∧ s'.delayed = updateOffsets delayed tr.length := by
  unfold pStep at e
  simp only at e
  split at e
  · cases e
  · next cands delayed hg =>
    split at e
    · next n hsel =>
      have hn : nocrossCandidate t cs cons s = some n := by
        split at hsel
        · split at hsel
          · cases hsel; assumption
          · cases hsel
        · cases hsel; assumption
        · cases hsel
      have hm := List.mem_filter.1 (heaviest_mem hn)
      obtain ⟨rule, hrule, hmat, hfr⟩ := C13_found_rule_applies ctx.trieClasses cs.lower d (nocrossRules ops) t.nocross
        h.nocross s.rest s.prev n hm.1
      split at e
      · cases e
      · cases e
        refine ⟨cands, delayed, _, hg, rfl, ?_, ?_⟩
        · rw [capitalise_effects, hfr.effects]; rfl
        · rw [(capitalise_same t cs cons s.pos n).1]
    · split at e
      · next c hc =>
        split at e
        · cases e
        · next env henv =>
          cases e
          refine ⟨cands, delayed, _, hg, rfl, ?_, ?_⟩
          · rw [capitalise_effects]; exact henv
          · rw [(capitalise_same t cs cons s.pos c).1]
      · split at e
        · cases e
        · split at e
          · cases e
          · next x rest hx r hr =>
            cases e
            refine ⟨cands, delayed, _, hg, rfl, ?_, ?_⟩
            · rw [plain_effects h hr]; rfl
            · rw [(plain_same h hr).2]

theorem applyAll_append {a b : List Effect} {e e' e'' : Env} (h : e.applyAll a = .ok e') (h' : e'.applyAll b = .ok e'') :
    e.applyAll (a ++ b) = .ok e'' := by
  induction a generalizing e with
  | nil => cases h; exact h'
  | cons x a ih =>
    simp only [List.cons_append, Env.applyAll] at h ⊢
    split at h
    · cases h
    · exact ih h

theorem flatMap_nil_of {α β : Type} {f : α → List β} : ∀ {l : List α}, (∀ x ∈ l, f x = []) → l.flatMap f = []
  | [], _ => rfl
  | x :: l, h => by
    rw [List.flatMap_cons, h x (List.mem_cons_self ..), flatMap_nil_of (fun y hy => h y (List.mem_cons_of_mem _ hy))]
    rfl

/-- Indications stand for no text and change no variable. -/
def Silent (ind : Nat → List Resolved) : Prop := ∀ p, ∀ r ∈ ind p, r.input = [] ∧ r.effects = []

theorem gather_held (h : PrimOk ctx d ops t) {s : PState} (hs : Tracked input s)
    (hd : ∀ c ∈ s.delayed, Held ctx ops cs.lower input s.out (s.pos + c.offset) c) {cands delayed : List Resolved}
    (hg : gather t cs cons input s = .ok (cands, delayed)) :
    (∃ all, cands = selectCandidates t cs cons s all ∧ ∀ c ∈ all, Held ctx ops cs.lower input s.out s.pos c ∨
      ∃ ru ∈ trieRules d ops, RuleMatches ctx.trieClasses cs.lower d ru s.rest s.prev ∧ FromRule d ru c) ∧
    ∀ c ∈ delayed, Held ctx ops cs.lower input s.out (s.pos + c.offset) c := by
  unfold gather at hg
  simp only at hg
  split at hg
  · cases hg
  · next ms e1 =>
    split at hg
    · cases hg
    · next xs e2 =>
      simp only [Except.ok.injEq, Prod.mk.injEq] at hg
      obtain ⟨rfl, rfl⟩ := hg
      have o1 := found_match (cs := cs) h hs e1
      have o2 := found_context (cs := cs) h hs e2
      have o3 : ∀ c ∈ t.trie.find cs.lower s.rest s.prev, c.offset = 0 ∧ ∃ ru ∈ trieRules d ops,
          RuleMatches ctx.trieClasses cs.lower d ru s.rest s.prev ∧ FromRule d ru c := by
        intro c hc
        obtain ⟨r, hr, hm, hfr⟩ := C13_found_rule_applies ctx.trieClasses cs.lower d (trieRules d ops) t.trie h.trie _ _ c hc
        exact ⟨hfr.offset, r, hr, hm, hfr⟩
      have key : ∀ c ∈ s.delayed ++ (t.trie.find cs.lower s.rest s.prev).filter (·.offset != 0) ++
          ms.filter (·.offset != 0) ++ xs.filter (·.offset != 0), Held ctx ops cs.lower input s.out (s.pos + c.offset) c := by
        intro c hc
        simp only [List.mem_append, List.mem_filter] at hc
        rcases hc with ((hc | hc) | hc) | hc
        · exact hd c hc
        · have := (o3 c hc.1).1
          simp [this] at hc
        · exact o1 c hc.1
        · exact o2 c hc.1
      refine ⟨⟨_, rfl, ?_⟩, fun c hc => key c (List.mem_filter.1 hc).1⟩
      intro c hc
      rw [List.mem_append, List.mem_append, List.mem_append] at hc
      rcases hc with ((hc | hc) | hc) | hc
      · exact .inr (o3 c (List.mem_filter.1 hc).1).2
      · obtain ⟨hc, h0⟩ := List.mem_filter.1 hc
        have := o1 c hc
        rw [eq_of_beq h0] at this
        exact .inl this
      · obtain ⟨hc, h0⟩ := List.mem_filter.1 hc
        have := o2 c hc
        rw [eq_of_beq h0] at this
        exact .inl this
      · obtain ⟨hc, h0⟩ := List.mem_filter.1 hc
        have := key c hc
        rw [eq_of_beq h0] at this
        exact .inl this

theorem reach_tracked (h : PrimOk ctx d ops t) (hind : Silent ind) {s : PState} (hr : PReach t cs cons ind input s) :
    Tracked input s ∧ ∀ c ∈ s.delayed, Held ctx ops cs.lower input s.out (s.pos + c.offset) c := by
  induction hr with
  | init => exact ⟨⟨rfl, rfl, Nat.zero_le _, rfl, rfl⟩, by intro c hc; simp [PState.init] at hc⟩
  | @step s s' hr e ih =>
    obtain ⟨ht, hd⟩ := ih
    obtain ⟨tr, r⟩ := pStep_round h (hr.inv h (fun p x hx => (hind p x hx).1)) e
    obtain ⟨cands, delayed, tr', hg, ho, henv, hdel⟩ := pStep_env h e
    have : tr' = tr := by
      rw [r.out] at ho
      exact (List.append_cancel_left ho |> List.cons.inj).1.symm
    subst this
    have hlen : tr'.input.length = tr'.length := by
      rw [← r.fits.1.length, List.length_take]
      have := r.fits.2
      omega
    have hinds : ∃ inds, s'.out = s.out ++ (inds ++ [tr']) ∧ ∀ x ∈ inds, x ∈ ind s.pos := by
      rw [r.out]
      split
      · exact ⟨[], by simp, by simp⟩
      · exact ⟨ind s.pos, by simp, fun x hx => hx⟩
    obtain ⟨inds, hout, hi⟩ := hinds
    have hin : s'.out.flatMap (·.input) = s.out.flatMap (·.input) ++ tr'.input := by
      rw [hout, List.flatMap_append, List.flatMap_append, flatMap_nil_of (fun x hx => (hind _ x (hi x hx)).1)]
      simp
    have heff : s'.out.flatMap (·.effects) = s.out.flatMap (·.effects) ++ tr'.effects := by
      rw [hout, List.flatMap_append, List.flatMap_append, flatMap_nil_of (fun x hx => (hind _ x (hi x hx)).2)]
      simp
    have hpos : s'.pos = coveredBy s'.out := by
      rw [r.pos, ht.pos, coveredBy, coveredBy, hin, List.length_append, hlen]
    refine ⟨⟨hpos, ?_, ?_, ?_, ?_⟩, ?_⟩
    · rw [r.rest, ht.rest, List.drop_drop, r.pos]
    · have := r.fits.2
      rw [ht.rest, List.length_drop] at this
      have := ht.le
      rw [r.pos]
      omega
    · rw [r.prev, hin]
      split
      · next h0 =>
        rw [h0] at hlen
        rw [List.length_eq_zero_iff.mp hlen, List.append_nil, ht.prev]
      · next h0 =>
        have hne : tr'.input ≠ [] := by
          intro hn; rw [hn] at hlen; simp at hlen; omega
        rw [List.getLast?_append]
        cases hl : tr'.input.getLast? with
        | none => exact absurd (List.getLast?_eq_none_iff.mp hl) hne
        | some x => rfl
    · rw [heff]; exact applyAll_append ht.env henv
    · intro c hc
      rw [hdel] at hc
      simp only [updateOffsets, List.mem_map, List.mem_filter, decide_eq_true_eq] at hc
      obtain ⟨c0, ⟨h0, hn⟩, rfl⟩ := hc
      have := (gather_held h ht hd hg).2 c0 h0
      rw [hout, r.pos]
      have e : s.pos + c0.offset = s.pos + tr'.length + (c0.offset - tr'.length) := by omega
      rw [e] at this
      exact (this.more _).offset _

end Louis
