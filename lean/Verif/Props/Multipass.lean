import Verif.Lemmas.Multipass

/-!
# Properties C06, C07, C08, C15 (multipass part)

Throughout, a multipass table is one obtained by compiling a list of rules (`compilePass`), whatever the rules, the
character classes and the swap classes; `lower` is an arbitrary function in place of Unicode lowercasing.
-/

namespace Louis

open Regexp (Fault Compiled findAnchored)

/-- A translator stage obtained by compiling rules. -/
structure CompiledPass (t : MultipassTable) : Prop where
  ex : ∃ ctx swaps direction rules, compilePass ctx swaps direction t.stage rules = .ok t.patterns

theorem CompiledPass.ok {t : MultipassTable} (h : CompiledPass t) : PatternsOk MpPayload t.patterns := by
  obtain ⟨_, _, _, _, h⟩ := h.ex
  exact compilePass_ok h

/-! ## C06 -/

/-- **C06.** Every multipass stage terminates, without panicking, on every text, whatever its rules; and has exactly one
result. -/
theorem C06_multipass_terminates (t : MultipassTable) (h : CompiledPass t) (lower : Char → List Char) (input : Text) :
    ∃ ts, t.Traces lower input ts ∧ ∀ ts', t.Traces lower input ts' → ts' = ts := by
  obtain ⟨ts, e, -⟩ := mpLoop_total h.ok lower input _ (MpState.init input) (MpInv.init _ _) (Nat.lt_succ_self _)
  refine ⟨ts, ⟨_, e⟩, ?_⟩
  rintro ts' ⟨k, e'⟩
  generalize (mpMeasure _ _).succ = n at e
  have h1 := mpLoop_mono e (max k n) (Nat.le_max_right _ _)
  have h2 := mpLoop_mono e' (max k n) (Nat.le_max_left _ _)
  rw [h1] at h2
  cases h2
  rfl

/-- **C06.** The number of rounds of the loop is bounded by an explicit function of the table and the text: no more than
(length + 1) · (number of rules · (length + 1) + 1). -/
theorem C06_round_bound (t : MultipassTable) (h : CompiledPass t) (lower : Char → List Char) (input : Text) :
    ∃ ts, mpLoop t lower input ((input.length + 1) * (t.patterns.length * (input.length + 1) + 1) + 1)
      (MpState.init input) = .ok ts := by
  have hU : (zeroSubsets t.patterns input.length).length = t.patterns.length * (input.length + 1) := by
    have hp := h.ok
    generalize t.patterns = ps at hp
    induction ps with
    | nil => simp [zeroSubsets]
    | cons p ps ih =>
      have := ih (fun q hq => hp q (List.mem_cons_of_mem _ hq))
      obtain ⟨r, pl, rfl, hpl⟩ := hp p (List.mem_cons_self ..)
      simp only [zeroSubsets, List.flatMap_cons, List.length_append, translations_compile, List.flatMap_nil,
        List.append_nil, List.length_cons, Nat.add_mul] at this ⊢
      rw [this]
      cases pl <;> simp <;> omega
  obtain ⟨ts, e, -⟩ := mpLoop_total h.ok lower input _ (MpState.init input) (MpInv.init _ _) (Nat.lt_succ_self _)
  refine ⟨ts, mpLoop_mono e _ ?_⟩
  simp only [mpMeasure, hU, MpState.init, List.length_nil, Nat.add_mul]
  omega

/-! ## C07 -/

/-- **C07.** The inputs of the translations of the trace, concatenated, are the text. -/
theorem C07_trace_covers_input (t : MultipassTable) (h : CompiledPass t) (lower : Char → List Char) (input : Text)
    (ts : List Resolved) (ht : t.Traces lower input ts) : ts.flatMap (·.input) = input := by
  obtain ⟨ts', e, hc⟩ := mpLoop_total h.ok lower input _ (MpState.init input) (MpInv.init _ _) (Nat.lt_succ_self _)
  obtain ⟨u, hu, huniq⟩ := C06_multipass_terminates t h lower input
  have := huniq _ ht
  have := huniq _ ⟨_, e⟩
  simp_all

/-- The states the loop goes through on `input`. -/
inductive MpReach (t : MultipassTable) (lower : Char → List Char) (input : Text) : MpState → Prop where
  | init : MpReach t lower input (MpState.init input)
  | step {s s'} : MpReach t lower input s → mpStep t lower input s = .ok (some s') → MpReach t lower input s'

theorem MpReach.inv {t : MultipassTable} (h : CompiledPass t) {lower input s} (hr : MpReach t lower input s) :
    MpInv t.patterns input s := by
  induction hr with
  | init => exact MpInv.init _ _
  | step _ e ih =>
    rcases mpStep_spec h.ok lower input ih with ⟨e', -⟩ | ⟨s2, e', i', -⟩
    · rw [e] at e'; cases e'
    · rw [e] at e'; cases e'; exact i'

theorem mpLoop_reach {t : MultipassTable} {lower input} (P : MpState → Prop)
    (hP : ∀ s, MpReach t lower input s → mpStep t lower input s = .ok none → P s) :
    ∀ {k s ts}, MpReach t lower input s → mpLoop t lower input k s = .ok ts → ∃ s', P s' ∧ s'.out = ts := by
  intro k
  induction k with
  | zero => intro s ts _ h; simp [mpLoop] at h
  | succ k ih =>
    intro s ts hr h
    simp only [mpLoop] at h
    split at h
    · cases h
    · next e => cases h; exact ⟨s, hP s hr e, rfl⟩
    · next s' e => exact ih (.step hr e) h

/-- One step appends exactly one translation: the heaviest unseen candidate or the next character unchanged. -/
theorem mpStep_out {t : MultipassTable} {lower input} {s s' : MpState} (e : mpStep t lower input s = .ok (some s')) :
    (∃ c found, patternsFind t.patterns lower s.rest s.env (Regexp.utf8Len s.rest == Regexp.utf8Len input) = .ok found ∧
      heaviest ((found.filter (·.offset == 0) ++ (s.delayed ++ found.filter (·.offset != 0)).filter (·.offset == 0)).filter
        fun c => !s.seen.contains c.subset) = some c ∧
      s'.out = s.out ++ [c] ∧ s'.rest = s.rest.drop c.length ∧
      s'.seen = (if c.length = 0 then c.subset :: s.seen else []) ∧ s.env.applyAll c.effects = .ok s'.env) ∨
    (∃ x found, patternsFind t.patterns lower s.rest s.env (Regexp.utf8Len s.rest == Regexp.utf8Len input) = .ok found ∧
      heaviest ((found.filter (·.offset == 0) ++ (s.delayed ++ found.filter (·.offset != 0)).filter (·.offset == 0)).filter
        fun c => !s.seen.contains c.subset) = none ∧
      s.rest = x :: s'.rest ∧ s'.out = s.out ++ [Resolved.new [x] [x] 1 t.stage none] ∧ s'.seen = s.seen ∧ s'.env = s.env) := by
  unfold mpStep at e
  simp only at e
  split at e
  · cases e
  · next found hf =>
    split at e
    · next c hc =>
      split at e
      · cases e
      · next env he =>
        cases e
        refine .inl ⟨c, found, hf, hc, rfl, ?_, rfl, he⟩
        simp only
        split
        · next h => simp [h]
        · rfl
    · next hc =>
      split at e
      · cases e
      · next x rest hr =>
        cases e
        exact .inr ⟨x, found, hf, hc, hr, rfl, rfl, rfl⟩

/-- **C07.** Where no rule matches the text is passed through: if no rule matches at any position then the output is the
input. -/
theorem C07_no_rule_identity (t : MultipassTable) (h : CompiledPass t) (lower : Char → List Char) (input : Text)
    (hno : ∀ suffix, suffix <:+ input → ∀ p ∈ t.patterns, ∀ atStart,
      findAnchored p lower suffix Env.new atStart = .ok none)
    (ts : List Resolved) (ht : t.Traces lower input ts) : outputOf ts = input := by
  have hfind : ∀ (ps : List (Compiled Translation)) suffix atStart, (∀ p ∈ ps, findAnchored p lower suffix Env.new atStart = .ok none) →
      patternsFind ps lower suffix Env.new atStart = .ok [] := by
    intro ps suffix atStart
    induction ps with
    | nil => intro _; rfl
    | cons p ps ih =>
      intro hps
      simp [patternsFind, hps p (List.mem_cons_self ..), ih (fun q hq => hps q (List.mem_cons_of_mem _ hq))]
  have key : ∀ s, MpReach t lower input s → s.env = Env.new ∧ s.delayed = [] ∧ outputOf s.out ++ s.rest = input := by
    intro s hr
    induction hr with
    | init => exact ⟨rfl, rfl, rfl⟩
    | @step s s' hr e ih =>
      obtain ⟨h1, h2, h3⟩ := ih
      have hsuf : s.rest <:+ input := ⟨_, h3⟩
      have hp := hfind t.patterns s.rest (Regexp.utf8Len s.rest == Regexp.utf8Len input) (fun p hp => hno _ hsuf p hp _)
      unfold mpStep at e
      simp only [h1, hp, h2, List.filter_nil, List.append_nil, heaviest] at e
      split at e
      · cases e
      · next x rest hx =>
        cases e
        refine ⟨rfl, rfl, ?_⟩
        rw [← h3, hx]
        simp [outputOf, Resolved.new]
  obtain ⟨k, e⟩ := ht
  obtain ⟨s, hs, rfl⟩ := mpLoop_reach (fun s => outputOf s.out = input) (by
    intro s hr e
    have ⟨_, _, h3⟩ := key s hr
    rcases mpStep_spec h.ok lower input (hr.inv h) with ⟨_, h0⟩ | ⟨_, e', _⟩
    · rw [h0] at h3; simpa using h3
    · rw [e] at e'; cases e') .init e
  exact hs

/-- Example: `pass2 @1[@2]@3 @4`, a rule whose replaced text lies one character ahead. -/
def aheadRule : PassRule := ⟨[.dots ['⠁'], .replace [.dots ['⠂']], .dots ['⠄']], [.dots ['⠈']], ⟨.other, 1⟩⟩

def aheadTable : MultipassTable :=
  ⟨match compilePass [] [] .forward .post1 [aheadRule] with | .ok ps => ps | .error _ => [], .post1⟩

example : CompiledPass aheadTable := ⟨[], [], .forward, [aheadRule], rfl⟩

set_option maxRecDepth 10000 in
example : ∃ ts, aheadTable.Traces (fun c => [c]) ['⠁', '⠂', '⠄', '⠂'] ts ∧ ts.map (·.input) = [['⠁'], ['⠂'], ['⠄'], ['⠂']] ∧
    outputOf ts = ['⠁', '⠈', '⠄', '⠂'] := ⟨_, ⟨10, rfl⟩, by decide, by decide⟩

/-! ## C15 for multipass stages -/

/-- A rule of the stage applies right here with `n` characters matched: its pattern matches the remaining text under the
current variables and what it replaces begins right here. -/
def AppliesHere (t : MultipassTable) (lower : Char → List Char) (input : Text) (s : MpState) (tr : Resolved) : Prop :=
  ∃ p ∈ t.patterns, ∃ f, findAnchored p lower s.rest s.env (Regexp.utf8Len s.rest == Regexp.utf8Len input) = .ok (some f) ∧
    f.offset = 0 ∧ tr = f.payload.resolve f.capture f.length 0

theorem patternsFind_complete {lower : Char → List Char} {input : Text} {env : Env} {atStart : Bool} :
    ∀ {ps : List (Compiled Translation)} {l}, patternsFind ps lower input env atStart = .ok l → ∀ p ∈ ps, ∀ f,
      findAnchored p lower input env atStart = .ok (some f) → f.payload.resolve f.capture f.length f.offset ∈ l := by
  intro ps
  induction ps with
  | nil => intro l _ p hp; cases hp
  | cons q qs ih =>
    intro l h p hp f hf
    simp only [patternsFind] at h
    split at h
    · cases h
    · next r hr =>
      split at h
      · cases h
      · next rs hrs =>
        rcases List.mem_cons.1 hp with rfl | hp
        · rw [hf] at hr
          cases hr
          cases h
          exact List.mem_cons_self ..
        · have := ih hrs p hp f hf
          split at h
          · cases h; exact this
          · cases h; exact List.mem_cons_of_mem _ this

theorem payload_offset (payload : Translation) (c : Text) (w o : Nat) : (payload.resolve c w o).offset = o := by
  cases payload <;> rfl

/-- **C15 (multipass).** The translation appended in a round is at least as heavy as every rule that applies at this
position and is not held back as an already applied zero-width rule; and a character is passed through only if there is no
such rule. -/
theorem C15_multipass_heaviest (t : MultipassTable) (lower : Char → List Char) (input : Text) (s s' : MpState)
    (e : mpStep t lower input s = .ok (some s')) (tr : Resolved) (hap : AppliesHere t lower input s tr)
    (hseen : tr.subset ∉ s.seen) :
    ∃ c, s'.out = s.out ++ [c] ∧ tr.weight ≤ c.weight ∧ s'.rest = s.rest.drop c.length := by
  obtain ⟨p, hp, f, hf, h0, rfl⟩ := hap
  have hmem : ∀ found, patternsFind t.patterns lower s.rest s.env (Regexp.utf8Len s.rest == Regexp.utf8Len input) = .ok found →
      f.payload.resolve f.capture f.length 0 ∈
      (found.filter (·.offset == 0) ++ (s.delayed ++ found.filter (·.offset != 0)).filter (·.offset == 0)).filter
        fun c => !s.seen.contains c.subset := by
    intro found hfo
    refine List.mem_filter.2 ⟨List.mem_append_left _ (List.mem_filter.2 ⟨?_, ?_⟩), ?_⟩
    · have := patternsFind_complete hfo p hp f hf
      rwa [h0] at this
    · simp [payload_offset]
    · simpa using hseen
  rcases mpStep_out e with ⟨c, found, hfo, hc, ho, hr, -⟩ | ⟨x, found, hfo, hn, -⟩
  · exact ⟨c, ho, heaviest_max hc _ (hmem found hfo), hr⟩
  · rw [heaviest_none] at hn
    have := hmem found hfo
    rw [hn] at this
    cases this

/-! ## C08: zero-width rules -/

/-- `pass2 []@1 @2`: insert dot 2 before every dot 1. -/
def insertRule : PassRule := ⟨[.replace [], .dots ['⠁']], [.dots ['⠂']], ⟨.other, 1⟩⟩

def insertTable : MultipassTable :=
  ⟨match compilePass [] [] .forward .post1 [insertRule] with | .ok ps => ps | .error _ => [], .post1⟩

theorem insertTable_compiled : CompiledPass insertTable := ⟨[], [], .forward, [insertRule], rfl⟩

theorem mpReach_two {t : MultipassTable} {lower input s1 s2} (e1 : mpStep t lower input (MpState.init input) = .ok (some s1))
    (e2 : mpStep t lower input s1 = .ok (some s2)) : MpReach t lower input s2 := .step (.step .init e1) e2

set_option maxRecDepth 10000 in
/-- **C08 is false of the code.** The rule `[]@1 @2` inserts dot 2 before dot 1.  In "⠃⠁" and in "⠁⠁" the last
character, the variables and the delayed rules are the same when the last position is reached, and no zero-width rule has
been applied at that position; yet the rule applies there in the first text and not in the second, because it was
already applied at an *earlier* position and the memory of it is only cleared by a rule that consumes text, not when a
character is passed through. -/
theorem C08_zero_width_depends_on_history_wrong :
    ∃ ts₁ ts₂, insertTable.Traces (fun c => [c]) ['⠃', '⠁'] ts₁ ∧ outputOf ts₁ = ['⠃', '⠂', '⠁'] ∧
      insertTable.Traces (fun c => [c]) ['⠁', '⠁'] ts₂ ∧ outputOf ts₂ = ['⠂', '⠁', '⠁'] := by
  refine ⟨_, _, ⟨10, rfl⟩, by decide, ⟨10, rfl⟩, by decide⟩

/-- **C08, the part that holds.** Right at the start, and right after a rule that consumed some text, nothing is held
back: every rule applying there competes by weight, zero-width or not. -/
theorem C08_fresh_after_consuming_rule_partial (t : MultipassTable) (lower : Char → List Char) (input : Text)
    (s s' : MpState) (hr : MpReach t lower input s)
    (hlast : s.out = [] ∨ ∃ before c, s.out = before ++ [c] ∧ c.length ≠ 0 ∧ c.origin ≠ none)
    (e : mpStep t lower input s = .ok (some s')) (tr : Resolved) (hap : AppliesHere t lower input s tr) :
    ∃ c, s'.out = s.out ++ [c] ∧ tr.weight ≤ c.weight ∧ s'.rest = s.rest.drop c.length := by
  refine C15_multipass_heaviest t lower input s s' e tr hap ?_
  have : s.seen = [] := by
    cases hr with
    | init => rfl
    | step _ e' =>
      rcases mpStep_out e' with ⟨c, _, _, _, ho, _, hs, _⟩ | ⟨x, _, _, _, _, ho, _⟩
      · rcases hlast with h | ⟨b, c', h, h1, -⟩
        · rw [ho] at h; simp at h
        · rw [ho] at h
          have := List.append_inj_right' h rfl
          cases this
          rw [hs, if_neg h1]
      · rcases hlast with h | ⟨b, c', h, -, h2⟩
        · rw [ho] at h; simp at h
        · rw [ho] at h
          have := List.append_inj_right' h rfl
          cases this
          exact absurd rfl h2
  rw [this]
  simp

end Louis
