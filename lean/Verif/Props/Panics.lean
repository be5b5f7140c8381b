import Verif.Model.Source
import Verif.Props.Negation
import Verif.Props.ParseTable
import Verif.Props.Includes
import Verif.Props.PipelineTotal

/-!
# C42: which accepted tables make the compilation panic
-/

namespace Louis

open Regexp (Regexp)

/-! ## Specification -/

mutual
/-- The test compares a variable with another operator than `=`. -/
def TestInstr.compares : TestInstr → Bool
  | .varTest _ op _ => op != .eq
  | .negate t => t.compares
  | .replace ts => TestInstr.anyCompares ts
  | _ => false
def TestInstr.anyCompares : List TestInstr → Bool
  | [] => false
  | t :: ts => t.compares || TestInstr.anyCompares ts
end

/-- The rules that make the compilation of a table for the direction panic: multipass rules that compare a variable with
`<`, `<=`, `>` or `>=` (unless the rule is skipped backward), and match rules with text inside two negations. -/
def Rule.panics (d : Direction) : Rule → Bool
  | .pass .context test _ _ => TestInstr.anyCompares test
  | .pass _ test action _ => TestInstr.anyCompares test && (d == .forward || action.any (·.consumesInput))
  | .matchRule pre _ post _ _ => Pattern.anyReadsUnder 2 pre || Pattern.anyReadsUnder 2 post
  | _ => false

/-! ## What the parser guarantees -/

/-- Dots that are written are at least one cell. -/
def Braille.Solid : Braille → Prop
  | .implicit => True
  | .explicit cells => cells ≠ []

mutual
/-- A negated test is not a negation and not a bracketed test. -/
def TestInstr.Proper : TestInstr → Prop
  | .negate t => t.Proper ∧ (∀ u, t ≠ .negate u) ∧ (∀ us, t ≠ .replace us)
  | .replace ts => TestInstr.AllProper ts
  | _ => True
def TestInstr.AllProper : List TestInstr → Prop
  | [] => True
  | t :: ts => t.Proper ∧ TestInstr.AllProper ts
end

/-- Operands are not empty, and tests and patterns are such as the grammars allow. -/
def Rule.Solid : Rule → Prop
  | .charDef _ _ dots _ | .decpoint _ dots | .numsign dots | .nonumsign dots _ | .capsletter dots _ | .begcapsword dots _
  | .endcapsword dots _ => dots ≠ []
  | .contraction chars => chars ≠ []
  | .comp6 chars dots | .text _ chars dots _ _ | .syllable chars dots | .endnum chars dots _ => chars ≠ [] ∧ dots.Solid
  | .largesign chars dots | .joinword chars dots | .lowword chars dots _ | .begnum chars dots _ | .midnum chars dots _
  | .prepunc chars dots _ | .postpunc chars dots _ => chars ≠ [] ∧ dots ≠ []
  | .matchRule pre _ post _ _ => (pre ≠ [] ∧ Pattern.AllProper pre) ∧ post ≠ [] ∧ Pattern.AllProper post
  | .pass _ test _ _ => TestInstr.AllProper test
  | _ => True

theorem tokensFrom_ne (s : Text) : ∀ (token : Text), ∀ t ∈ tokensFrom token s, t ≠ [] := by
  induction s with
  | nil =>
    intro token t h
    rw [tokensFrom] at h
    split at h
    · simp at h
    · next hn => simp only [List.mem_singleton] at h; subst h; exact hn
  | cons c s ih =>
    intro token t h
    rw [tokensFrom] at h
    split at h
    · split at h
      · exact ih _ t h
      · next hn =>
        rw [List.mem_cons] at h
        rcases h with rfl | h
        · exact hn
        · exact ih _ t h
    · exact ih _ t h

/-- The tokens of a line are not empty. -/
theorem tokens_ne (s : Text) : ∀ t ∈ tokens s, t ≠ [] := tokensFrom_ne s []

/-- Reading nonempty tokens, the parser's results have the property. -/
def P.Ensures {α : Type} (p : P α) (Q : α → Prop) : Prop :=
  ∀ ts a ts', (∀ t ∈ ts, t ≠ []) → p ts = some (a, ts') → Q a ∧ ∀ t ∈ ts', t ≠ []

theorem P.Ensures.bind {α β : Type} {p : P α} {f : α → P β} {Q : α → Prop} {R : β → Prop} (hp : p.Ensures Q)
    (hf : ∀ a, Q a → (f a).Ensures R) : P.Ensures (p >>= f) R := by
  intro ts b ts' hts h
  change P.bind p f ts = _ at h
  rw [P.bind] at h
  split at h
  · cases h
  · next a us hpa =>
    obtain ⟨h1, h2⟩ := hp ts a us hts hpa
    exact hf a h1 us b ts' h2 h

theorem P.Ensures.pure {α : Type} {a : α} {R : α → Prop} (h : R a) : P.Ensures (Pure.pure a : P α) R := by
  intro ts b ts' hts he
  change P.pure a ts = _ at he
  rw [P.pure, Option.some.injEq, Prod.mk.injEq] at he
  obtain ⟨rfl, rfl⟩ := he
  exact ⟨h, hts⟩

theorem P.Ensures.conv {α : Type} {f : Text → Option α} {Q : α → Prop} (h : ∀ s a, s ≠ [] → f s = some a → Q a) :
    P.Ensures (P.conv f) Q := by
  intro ts a ts' hts he
  cases ts with
  | nil => simp [P.conv] at he
  | cons t ts =>
    rw [P.conv, Option.map_eq_some_iff] at he
    obtain ⟨b, hb, he⟩ := he
    rw [Prod.mk.injEq] at he
    obtain ⟨rfl, rfl⟩ := he
    exact ⟨h t b (hts t (by simp)) hb, fun u hu => hts u (by simp [hu])⟩

theorem P.Ensures.require {b : Bool} : P.Ensures (P.require b) (fun _ => b = true) := by
  intro ts a ts' hts he
  rw [P.require] at he
  split at he
  · next hb => rw [Option.some.injEq, Prod.mk.injEq] at he; obtain ⟨-, rfl⟩ := he; exact ⟨hb, hts⟩
  · cases he

theorem decodes_ne {ctx : EscCtx} {s t : Text} (h : Decodes ctx s t) (hs : s ≠ []) : t ≠ [] := by
  cases h <;> simp_all

theorem unescape_ne {ctx : EscCtx} {s t : Text} (h : unescape ctx s = some t) (hs : s ≠ []) : t ≠ [] :=
  decodes_ne ((C35_decoding_is_exact ctx s t).mp h) hs

theorem allSome_length {α β : Type} {f : α → Option β} : ∀ {as : List α} {bs : List β}, allSome f as = some bs →
    bs.length = as.length
  | [], bs, h => by rw [allSome, Option.some.injEq] at h; subst h; rfl
  | a :: as, bs, h => by
    rw [allSome] at h
    split at h
    · cases h
    · rw [Option.map_eq_some_iff] at h
      obtain ⟨cs, hc, rfl⟩ := h
      simp [allSome_length hc]

theorem splitOn_ne (sep : Char) (s : Text) : splitOn sep s ≠ [] := by
  cases s with
  | nil => simp [splitOn]
  | cons c s =>
    rw [splitOn]
    split
    · simp
    · split <;> simp

theorem cellsParse_ne {s : Text} {cells : Cells} (h : Cells.parse s = some cells) : cells ≠ [] := by
  intro he
  subst he
  have := allSome_length h
  exact splitOn_ne '-' s (List.eq_nil_of_length_eq_zero this.symm)

theorem pChars_ne : P.Ensures pChars (· ≠ []) := P.Ensures.conv fun _ _ hs h => unescape_ne h hs

theorem pExplicitDots_ne : P.Ensures pExplicitDots (· ≠ []) := P.Ensures.conv fun _ _ _ h => cellsParse_ne h

theorem pDots_solid : P.Ensures pDots Braille.Solid := P.Ensures.conv fun s a _ h => by
  split at h
  · rw [Option.some.injEq] at h; subst h; trivial
  · rw [Option.map_eq_some_iff] at h
    obtain ⟨c, hc, rfl⟩ := h
    exact cellsParse_ne hc

theorem pMatch_proper (side : Side) : P.Ensures (pMatch side) (fun ps => ps ≠ [] ∧ Pattern.AllProper ps) :=
  P.Ensures.conv fun s ps hs h => by
    split at h
    · cases h
    · next s' hu =>
      cases hp : parseMatch side s' with
      | error e => rw [hp] at h; cases h
      | ok qs =>
        rw [hp] at h
        rw [Except.toOption, Option.some.injEq] at h
        subst h
        exact parseMatch_proper hp (unescape_ne hu hs)

mutual
theorem testSrc_proper {s : Text} {t : TestInstr} (h : TestSrc s t) : t.Proper := by
  cases h with
  | negate src t h hn hr => exact ⟨testSrc_proper h, hn, hr⟩
  | replace src ts h => exact testsSrc_proper h
  | _ => trivial
theorem testsSrc_proper {s : Text} {ts : List TestInstr} (h : TestsSrc s ts) : TestInstr.AllProper ts := by
  cases h with
  | nil => trivial
  | cons src rest t ts h more => exact ⟨testSrc_proper h, testsSrc_proper more⟩
end

theorem pTest_proper : P.Ensures pTest TestInstr.AllProper := P.Ensures.conv fun s ts _ h => by
  cases hp : parseTest s with
  | error e => rw [hp] at h; cases h
  | ok qs =>
    rw [hp, Except.toOption, Option.some.injEq] at h
    subst h
    exact testsSrc_proper ((C55_test_grammar s qs).mp hp).1

theorem P.Ensures.any {α : Type} {f : Text → Option α} : P.Ensures (P.conv f) (fun _ => True) :=
  P.Ensures.conv fun _ _ _ _ => trivial

theorem pNext_ensures : P.Ensures P.next (fun _ => True) := by
  intro ts a ts' hts h
  cases ts with
  | nil => simp [P.next] at h
  | cons t ts =>
    rw [P.next, Option.some.injEq, Prod.mk.injEq] at h
    obtain ⟨-, rfl⟩ := h
    exact ⟨trivial, fun u hu => hts u (by simp [hu])⟩

theorem pNextOpt_ensures : P.Ensures P.nextOpt (fun _ => True) := by
  intro ts a ts' hts h
  cases ts with
  | nil => rw [P.nextOpt, Option.some.injEq, Prod.mk.injEq] at h; obtain ⟨-, rfl⟩ := h; exact ⟨trivial, by simp⟩
  | cons t ts =>
    rw [P.nextOpt, Option.some.injEq, Prod.mk.injEq] at h
    obtain ⟨-, rfl⟩ := h
    exact ⟨trivial, fun u hu => hts u (by simp [hu])⟩

theorem pManyNames_ensures : P.Ensures pManyNames (fun _ => True) := by
  intro ts a ts' hts h
  rw [pManyNames] at h
  split at h
  · rw [Option.some.injEq, Prod.mk.injEq] at h; obtain ⟨-, rfl⟩ := h; exact ⟨trivial, by simp⟩
  · cases h

theorem operands_solid (op : Opcode) (cons : RuleCons) (withs : List WithClass) :
    P.Ensures (operands op cons withs) Rule.Solid := by
  cases op <;> simp only [operands] <;>
    first
    | exact P.Ensures.pure trivial
    | (repeat
        first
        | exact P.Ensures.pure trivial
        | exact P.Ensures.pure (by assumption)
        | exact P.Ensures.pure ⟨by assumption, by assumption⟩
        | refine P.Ensures.bind pChars_ne fun _ _ => ?_
        | refine P.Ensures.bind pExplicitDots_ne fun _ _ => ?_
        | refine P.Ensures.bind pDots_solid fun _ _ => ?_
        | refine P.Ensures.bind (pMatch_proper _) fun _ _ => ?_
        | refine P.Ensures.bind pTest_proper fun _ _ => ?_
        | refine P.Ensures.bind pManyNames_ensures fun _ _ => ?_
        | refine P.Ensures.bind P.Ensures.require fun _ _ => ?_
        | refine P.Ensures.bind pNext_ensures fun _ _ => ?_
        | refine P.Ensures.bind pNextOpt_ensures fun _ _ => ?_
        | refine P.Ensures.bind P.Ensures.any fun _ _ => ?_)

theorem pEat_ensures (w : Text) : P.Ensures (P.eat w) (fun _ => True) := by
  intro ts a ts' hts h
  cases ts with
  | nil => rw [P.eat, Option.some.injEq, Prod.mk.injEq] at h; obtain ⟨-, rfl⟩ := h; exact ⟨trivial, by simp⟩
  | cons t ts =>
    rw [P.eat] at h
    split at h
    · rw [Option.some.injEq, Prod.mk.injEq] at h
      obtain ⟨-, rfl⟩ := h
      exact ⟨trivial, fun u hu => hts u (by simp [hu])⟩
    · rw [Option.some.injEq, Prod.mk.injEq] at h
      obtain ⟨-, rfl⟩ := h
      exact ⟨trivial, hts⟩

theorem pConstraints_ensures : P.Ensures pConstraints (fun _ => True) := by
  unfold pConstraints
  refine P.Ensures.bind (pEat_ensures _) fun a _ => ?_
  simp only
  split
  · refine P.Ensures.bind (P.Ensures.pure trivial : P.Ensures (P.pure false) fun _ => True) fun b _ => ?_
    refine P.Ensures.bind (pEat_ensures _) fun c _ => ?_
    exact P.Ensures.pure trivial
  · refine P.Ensures.bind (pEat_ensures _) fun b _ => ?_
    refine P.Ensures.bind (pEat_ensures _) fun c _ => ?_
    exact P.Ensures.pure trivial

theorem pWithClasses_ne : ∀ (ts : List Text), (∀ t ∈ ts, t ≠ []) → ∀ t ∈ (pWithClasses ts).2, t ≠ []
  | [], _ => by simp [pWithClasses]
  | [t], h => by
    rw [pWithClasses]
    split
    · simp
    · exact h
  | t :: u :: ts, h => by
    rw [pWithClasses]
    split
    · exact pWithClasses_ne ts fun x hx => h x (by simp [hx])
    · split
      · exact pWithClasses_ne ts fun x hx => h x (by simp [hx])
      · exact h

theorem pWithMatches_ne : ∀ (ts : List Text), (∀ t ∈ ts, t ≠ []) → ∀ t ∈ pWithMatches ts, t ≠ []
  | [], _ => by simp [pWithMatches]
  | t :: ts, h => by
    rw [pWithMatches]
    split
    · exact pWithMatches_ne ts fun x hx => h x (by simp [hx])
    · exact h

theorem parseLine_solid {line : Text} {rule : Rule} (h : parseLine line = some rule) : rule.Solid := by
  rw [parseLine, Option.map_eq_some_iff] at h
  obtain ⟨⟨r, rest⟩, h, rfl⟩ := h
  rw [pRule] at h
  split at h
  · cases h
  · next cons ts hc =>
    have h1 := (pConstraints_ensures _ _ _ (tokens_ne line) hc).2
    have h2 := pWithMatches_ne _ (pWithClasses_ne ts h1)
    simp only at h
    split at h
    · cases h
    · next word us hw =>
      rw [hw] at h2
      split at h
      · cases h
      · split at h
        · exact (operands_solid _ _ _ us r rest (fun t ht => h2 t (by simp [ht])) h).1
        · cases h

/-! ## Tests and patterns -/

mutual
theorem fromInstr_none (ctx : CharClasses) : ∀ (t : TestInstr), t.Proper → (fromInstr ctx t = none ↔ t.compares = true)
  | .lookback n, _ => by simp [fromInstr, TestInstr.compares]
  | .varTest v op o, _ => by cases op <;> simp [fromInstr, TestInstr.compares]
  | .string s, _ => by simp [fromInstr, TestInstr.compares]
  | .dots s, _ => by simp [fromInstr, TestInstr.compares]
  | .attributes as q, _ => by simp [fromInstr, TestInstr.compares]
  | .cls n q, _ => by simp [fromInstr, TestInstr.compares]
  | .atBeginning, _ => by simp [fromInstr, TestInstr.compares]
  | .atEnd, _ => by simp [fromInstr, TestInstr.compares]
  | .replace ts, h => by
    rw [fromInstr, Option.map_eq_none_iff, TestInstr.compares]
    exact fromInstrs_none ctx ts h
  | .negate t, h => by
    obtain ⟨h1, h2, h3⟩ := h
    rw [fromInstr, TestInstr.compares, ← fromInstr_none ctx t h1, Option.bind_eq_none_iff]
    constructor
    · intro hb
      cases t with
      | negate u => exact absurd rfl (h2 u)
      | replace us => exact absurd rfl (h3 us)
      | varTest v op o =>
        cases op
        · have := hb _ (by rw [fromInstr]); simp [Regexp.negate] at this
        all_goals rfl
      | lookback n => have := hb _ (by rw [fromInstr]); simp [Regexp.negate] at this
      | string s => have := hb _ (by rw [fromInstr]); simp [Regexp.negate] at this
      | dots s => have := hb _ (by rw [fromInstr]); simp [Regexp.negate] at this
      | atBeginning => have := hb _ (by rw [fromInstr]); simp [Regexp.negate] at this
      | atEnd => have := hb _ (by rw [fromInstr]); simp [Regexp.negate] at this
      | attributes as q =>
        have := hb _ (by rw [fromInstr])
        rcases q with _ | ⟨_ | _ | _⟩ <;> simp [fromAttributes, quantified, Regexp.negate] at this
      | cls n q =>
        have := hb _ (by rw [fromInstr])
        rcases q with _ | ⟨_ | _ | _⟩ <;> simp [fromClass, quantified, Regexp.negate] at this
    · intro hb r hr
      rw [hb] at hr
      cases hr
theorem fromInstrs_none (ctx : CharClasses) : ∀ (ts : List TestInstr), TestInstr.AllProper ts →
    (fromInstrs ctx ts = none ↔ TestInstr.anyCompares ts = true)
  | [], _ => by simp [fromInstrs, TestInstr.anyCompares]
  | t :: ts, h => by
    obtain ⟨h1, h2⟩ := h
    have ih1 := fromInstr_none ctx t h1
    rw [fromInstrs, TestInstr.anyCompares, Bool.or_eq_true, ← ih1]
    cases hf : fromInstr ctx t with
    | none => simp
    | some r => simp [fromRest_none ctx ts h2 r]
theorem fromRest_none (ctx : CharClasses) : ∀ (ts : List TestInstr), TestInstr.AllProper ts → ∀ acc,
    (fromRest ctx acc ts = none ↔ TestInstr.anyCompares ts = true)
  | [], _, acc => by simp [fromRest, TestInstr.anyCompares]
  | t :: ts, h, acc => by
    obtain ⟨h1, h2⟩ := h
    have ih1 := fromInstr_none ctx t h1
    rw [fromRest, TestInstr.anyCompares, Bool.or_eq_true, ← ih1]
    cases hf : fromInstr ctx t with
    | none => simp
    | some r => simp [fromRest_none ctx ts h2]
end

theorem implicitReplace_none (ctx : CharClasses) (ts : List TestInstr) (h : TestInstr.AllProper ts) :
    fromInstrs ctx (addImplicitReplace ts) = none ↔ TestInstr.anyCompares ts = true := by
  rw [addImplicitReplace]
  split
  · exact fromInstrs_none ctx ts h
  · have hp : TestInstr.AllProper [.replace ts] := ⟨h, trivial⟩
    rw [fromInstrs_none ctx _ hp]
    simp [TestInstr.anyCompares, TestInstr.compares]

theorem targetsOf_panic (swaps : SwapClasses) : ∀ (as : List ActionInstr), targetsOf swaps as ≠ .error .panic
  | [] => by simp [targetsOf]
  | a :: as => by
    rw [targetsOf]
    split
    · next e he =>
      intro h
      rw [Except.error.injEq] at h
      subst h
      cases a <;> simp [targetOf] at he
      split at he <;> simp at he
    · split
      · next e he => intro h; rw [Except.error.injEq] at h; subst h; exact targetsOf_panic swaps as he
      · simp

theorem compilePattern_panic {ctx : CharClasses} {swaps : SwapClasses} {stage : Stage} {prec : Prec} {origin : Origin}
    {test : List TestInstr} {action : List ActionInstr} (h : TestInstr.AllProper test) :
    (compilePattern ctx swaps stage prec origin test action = .error .panic → TestInstr.anyCompares test = true) ∧
    (TestInstr.anyCompares test = true → ∀ p, compilePattern ctx swaps stage prec origin test action ≠ .ok p) := by
  have hn := implicitReplace_none ctx test h
  constructor
  · intro he
    rw [compilePattern] at he
    split at he
    · next e ht => rw [Except.error.injEq] at he; subst he; exact absurd ht (targetsOf_panic _ _)
    · split at he
      · next hf => exact hn.mp hf
      · cases he
  · intro hc p he
    rw [compilePattern] at he
    split at he
    · cases he
    · rw [hn.mpr hc] at he
      cases he

theorem compilePass_panic {ctx : CharClasses} {swaps : SwapClasses} {d : Direction} {stage : Stage} :
    ∀ {rules : List PassRule}, (∀ r ∈ rules, TestInstr.AllProper r.test) →
    (compilePass ctx swaps d stage rules = .error .panic →
      ∃ r ∈ rules, TestInstr.anyCompares r.test = true ∧ (d = .forward ∨ r.action.any (·.consumesInput) = true)) ∧
    (∀ ps, compilePass ctx swaps d stage rules = .ok ps → ∀ r ∈ rules, TestInstr.anyCompares r.test = true →
      d = .backward ∧ r.action.any (·.consumesInput) = false)
  | [], _ => by simp [compilePass]
  | r :: rs, h => by
    have ih := compilePass_panic (ctx := ctx) (swaps := swaps) (d := d) (stage := stage) (rules := rs)
      fun x hx => h x (by simp [hx])
    have hr := h r (by simp)
    constructor
    · intro he
      rw [compilePass] at he
      split at he
      · obtain ⟨x, hx, hx'⟩ := ih.1 he
        exact ⟨x, by simp [hx], hx'⟩
      · next hd =>
        split at he
        · next e hp =>
          rw [Except.error.injEq] at he
          subst he
          refine ⟨r, by simp, (compilePattern_panic hr).1 hp, ?_⟩
          cases d with
          | forward => exact Or.inl rfl
          | backward => right; simpa using hd
        · split at he
          · next e hp =>
            rw [Except.error.injEq] at he
            subst he
            obtain ⟨x, hx, hx'⟩ := ih.1 hp
            exact ⟨x, by simp [hx], hx'⟩
          · cases he
    · intro ps he x hx hc
      rw [compilePass] at he
      split at he
      · next hd =>
        rw [List.mem_cons] at hx
        rcases hx with rfl | hx
        · exact ⟨hd.1, by simpa using hd.2⟩
        · exact ih.2 ps he x hx hc
      · split at he
        · cases he
        · next p hp =>
          split at he
          · cases he
          · next qs hq =>
            rw [List.mem_cons] at hx
            rcases hx with rfl | hx
            · exact absurd hp ((compilePattern_panic hr).2 hc p)
            · exact ih.2 qs hq x hx hc

theorem compileStage_panic {ctx : TableCtx} {d : Direction} {stage : Stage} {wrap : MultipassTable → Transform}
    {rules : List PassRule} (h : ∀ r ∈ rules, TestInstr.AllProper r.test) :
    (compileStage ctx d stage wrap rules = .error .panic →
      ∃ r ∈ rules, TestInstr.anyCompares r.test = true ∧ (d = .forward ∨ r.action.any (·.consumesInput) = true)) ∧
    (∀ ps, compileStage ctx d stage wrap rules = .ok ps → ∀ r ∈ rules, TestInstr.anyCompares r.test = true →
      d = .backward ∧ r.action.any (·.consumesInput) = false) := by
  have hp := compilePass_panic (ctx := ctx.stageClasses stage) (swaps := ctx.swaps) (d := d) (stage := stage) h
  constructor
  · intro he
    rw [compileStage] at he
    split at he
    · cases he
    · split at he
      · next e hc => rw [Except.error.injEq] at he; subst he; exact hp.1 hc
      · cases he
  · intro ps he
    rw [compileStage] at he
    split at he
    · next hn => intro r hr; rw [List.isEmpty_iff] at hn; rw [hn] at hr; simp at hr
    · split at he
      · cases he
      · next qs hq => exact hp.2 qs hq

theorem fromMatchRule_none {ctx : CharClasses} {pre post : List Pattern} {chars : Text} (h1 : pre ≠ [] ∧ Pattern.AllProper pre)
    (h2 : post ≠ [] ∧ Pattern.AllProper post) :
    fromMatchRule ctx pre chars post = none ↔
      (Pattern.anyReadsUnder 2 pre || Pattern.anyReadsUnder 2 post) = true := by
  have e1 : fromPatterns ctx pre = none ↔ Pattern.anyReadsUnder 2 pre = true := by
    have := (fromPatterns_compiles ctx pre h1.1 h1.2).1
    cases hf : fromPatterns ctx pre <;> rw [hf] at this <;> simpa using this
  have e2 : fromPatterns ctx post = none ↔ Pattern.anyReadsUnder 2 post = true := by
    have := (fromPatterns_compiles ctx post h2.1 h2.2).1
    cases hf : fromPatterns ctx post <;> rw [hf] at this <;> simpa using this
  rw [Bool.or_eq_true, ← e1, ← e2, fromMatchRule]
  cases fromPatterns ctx pre <;> cases fromPatterns ctx post <;> simp

/-! ## Character definitions -/

/-- No character is defined as nothing. -/
def CharDefs.Solid (defs : CharDefs) : Prop := ∀ e ∈ defs, e.2 ≠ []

theorem CharDefs.Solid.get {defs : CharDefs} (h : defs.Solid) {c : Char} {dots : Text} (hg : defs.get c = some dots) :
    dots ≠ [] := by
  rw [CharDefs.get, Option.map_eq_some_iff] at hg
  obtain ⟨e, he, rfl⟩ := hg
  exact h e (List.mem_of_find?_eq_some he)

theorem CharDefs.Solid.insert {defs : CharDefs} (h : defs.Solid) {c : Char} {dots : Text} (hd : dots ≠ []) :
    (defs.insert c dots).Solid := by
  intro e he
  rw [CharDefs.insert, List.mem_append, List.mem_singleton] at he
  rcases he with he | rfl
  · exact h e he
  · exact hd

theorem cellsToText_ne {cells : Cells} (h : cells ≠ []) : cells.toText ≠ [] := by
  rw [Cells.toText]; simpa using h

theorem resolve_ne {defs : CharDefs} (h : defs.Solid) {chars ds : Text} (hc : chars ≠ []) (hr : defs.resolve chars = .ok ds) :
    ds ≠ [] := by
  cases chars with
  | nil => exact absurd rfl hc
  | cons c cs =>
    rw [CharDefs.resolve] at hr
    split at hr
    · cases hr
    · next d hd =>
      split at hr
      · cases hr
      · rw [Except.ok.injEq] at hr
        subst hr
        simp [h.get hd]

theorem resolve_panic {defs : CharDefs} : ∀ (chars : Text), defs.resolve chars ≠ .error .panic
  | [] => by simp [CharDefs.resolve]
  | c :: cs => by
    rw [CharDefs.resolve]
    split
    · simp
    · split
      · next e he => intro h; rw [Except.error.injEq] at h; subst h; exact resolve_panic cs he
      · simp

theorem braille_ne {defs : CharDefs} (h : defs.Solid) {dots : Braille} (hd : dots.Solid) {chars ds : Text} (hc : chars ≠ [])
    (hr : defs.braille dots chars = .ok ds) : ds ≠ [] := by
  cases dots with
  | implicit => exact resolve_ne h hc hr
  | explicit cells =>
    rw [CharDefs.braille, Except.ok.injEq] at hr
    subst hr
    exact cellsToText_ne hd

theorem braille_panic {defs : CharDefs} (dots : Braille) (chars : Text) : defs.braille dots chars ≠ .error .panic := by
  cases dots with
  | implicit => exact resolve_panic chars
  | explicit cells => simp [CharDefs.braille]

theorem define_solid {alpha : Char → Bool} {ctx : TableCtx} {r : Rule} (h : ctx.defs.Solid) (hr : r.Solid) :
    (ctx.define alpha r).defs.Solid := by
  unfold TableCtx.define
  split
  · exact h.insert (cellsToText_ne hr)
  · exact h.insert (cellsToText_ne hr)
  · split <;> exact h
  · exact h

theorem derive_solid {ctx : TableCtx} {r : Rule} (h : ctx.defs.Solid) : (ctx.derive r).defs.Solid := by
  unfold TableCtx.derive
  split
  · split
    · exact h
    · next dots hd => exact h.insert (h.get hd)
  all_goals exact h

theorem foldl_inv {α β : Type} {f : β → α → β} {P : β → Prop} : ∀ {l : List α}, (∀ b, ∀ a ∈ l, P b → P (f b a)) → ∀ {b : β},
    P b → P (l.foldl f b)
  | [], _, _, h => h
  | a :: l, hf, b, h => by
    rw [List.foldl_cons]
    exact foldl_inv (fun b a ha => hf b a (by simp [ha])) (hf b a (by simp) h)

theorem compile_solid {alpha : Char → Bool} {rules : List Anchored} (h : ∀ r ∈ rules, r.rule.Solid) :
    (TableCtx.compile alpha rules).defs.Solid := by
  unfold TableCtx.compile
  refine foldl_inv (P := fun c : TableCtx => c.defs.Solid) (fun c r _ hc => derive_solid hc) ?_
  refine foldl_inv (P := fun c : TableCtx => c.defs.Solid) (fun c r hr hc => define_solid hc (h r hr)) ?_
  intro e he
  simp at he

/-! ## The operations of the main stage -/

/-- The operation inserts something, and its tests and patterns are such as the grammars allow. -/
def PrimOp.Solid (d : Direction) : PrimOp → Prop
  | .char _ dots _ _ => dots ≠ []
  | .rule _ r | .comp6 r => r.from d ≠ []
  | .matchRule pre _ post _ _ => (pre ≠ [] ∧ Pattern.AllProper pre) ∧ post ≠ [] ∧ Pattern.AllProper post
  | .context test _ _ => TestInstr.AllProper test
  | _ => True

/-- The operation panics. -/
def PrimOp.panics : PrimOp → Bool
  | .matchRule pre _ post _ _ => Pattern.anyReadsUnder 2 pre || Pattern.anyReadsUnder 2 post
  | .context test _ _ => TestInstr.anyCompares test
  | _ => false

theorem apply_direction {ctx : PrimCtx} {t t' : PrimaryTable} {op : PrimOp} (h : t.apply ctx op = .ok t') :
    t'.direction = t.direction := by
  unfold PrimaryTable.apply at h
  split at h <;> (try split at h) <;> (try split at h) <;>
    first
    | cases h; done
    | (rw [Except.ok.injEq] at h; subst h; rfl)

theorem insert_orPanic {classes : CharClasses} {d : Direction} {r : TrieRule} {t : Trie} (h : r.from d ≠ []) :
    ∃ t', orPanic (t.insert classes d r) = .ok t' := by
  rw [Trie.insert, if_neg h]
  exact ⟨_, rfl⟩

theorem apply_panic {ctx : PrimCtx} {t : PrimaryTable} {op : PrimOp} {d : Direction} (hd : t.direction = d) (h : op.Solid d) :
    (t.apply ctx op = .error .panic → op.panics = true) ∧ (op.panics = true → ∀ t', t.apply ctx op ≠ .ok t') := by
  subst hd
  cases op with
  | char c dots prec origin =>
    refine ⟨fun he => ?_, by simp [PrimOp.panics]⟩
    rw [PrimaryTable.apply] at he
    split at he
    · cases he
    · next hd =>
      obtain ⟨t', ht⟩ := insert_orPanic (classes := ctx.trieClasses) (d := .backward) (t := t.trie)
        (r := ⟨[c], dots, none, none, [], prec, .main, origin⟩) h
      rw [hd, ht] at he
      cases he
  | rule nocross r =>
    refine ⟨fun he => ?_, by simp [PrimOp.panics]⟩
    cases nocross
    · obtain ⟨t', ht⟩ := insert_orPanic (classes := ctx.trieClasses) (t := t.trie) h
      rw [PrimaryTable.apply, ht] at he
      cases he
    · obtain ⟨t', ht⟩ := insert_orPanic (classes := ctx.trieClasses) (t := t.nocross) h
      rw [PrimaryTable.apply, ht] at he
      cases he
  | comp6 r =>
    refine ⟨fun he => ?_, by simp [PrimOp.panics]⟩
    obtain ⟨t', ht⟩ := insert_orPanic (classes := ctx.trieClasses) (t := t.comp6) h
    rw [PrimaryTable.apply, ht] at he
    cases he
  | matchRule pre chars post to origin =>
    have hn := fromMatchRule_none (ctx := ctx.classes) (chars := chars) h.1 h.2
    rw [PrimOp.panics, ← hn]
    cases hf : fromMatchRule ctx.classes pre chars post with
    | none => refine ⟨fun _ => rfl, fun _ t' he => ?_⟩; rw [PrimaryTable.apply, compileMatch, hf] at he; cases he
    | some r => refine ⟨fun he => ?_, by simp⟩; rw [PrimaryTable.apply, compileMatch, hf] at he; cases he
  | context test action origin =>
    have hp := compilePattern_panic (ctx := ctx.classes) (swaps := ctx.swaps) (stage := .main) (prec := .default)
      (origin := origin) (action := action) h
    constructor
    · intro he
      rw [PrimaryTable.apply] at he
      split at he
      · next e hc => rw [Except.error.injEq] at he; subst he; exact hp.1 hc
      · cases he
    · intro hc t' he
      rw [PrimaryTable.apply] at he
      split at he
      · cases he
      · next p hp' => exact hp.2 hc p hp'
  | undefined dots => simp [PrimOp.panics, PrimaryTable.apply]
  | digitOverride cell ch origin => simp [PrimOp.panics, PrimaryTable.apply]

theorem applyAll_panic {ctx : PrimCtx} {d : Direction} : ∀ {ops : List PrimOp} {t : PrimaryTable}, t.direction = d →
    (∀ op ∈ ops, op.Solid d) →
    (PrimaryTable.applyAll ctx ops t = .error .panic → ∃ op ∈ ops, op.panics = true) ∧
    (∀ t', PrimaryTable.applyAll ctx ops t = .ok t' → t'.direction = d ∧ ∀ op ∈ ops, op.panics = false)
  | [], t, hd, _ => by simp [PrimaryTable.applyAll, hd]
  | op :: ops, t, hd, h => by
    have ha := apply_panic (ctx := ctx) hd (h op (by simp))
    constructor
    · intro he
      rw [PrimaryTable.applyAll] at he
      split at he
      · next e hp => rw [Except.error.injEq] at he; subst he; exact ⟨op, by simp, ha.1 hp⟩
      · next t' hp =>
        obtain ⟨x, hx, hx'⟩ := (applyAll_panic ((apply_direction hp).trans hd) fun x hx => h x (by simp [hx])).1 he
        exact ⟨x, by simp [hx], hx'⟩
    · intro t' he
      rw [PrimaryTable.applyAll] at he
      split at he
      · cases he
      · next t1 hp =>
        have ih := (applyAll_panic ((apply_direction hp).trans hd) fun x hx => h x (by simp [hx])).2 t' he
        refine ⟨ih.1, fun x hx => ?_⟩
        rw [List.mem_cons] at hx
        rcases hx with rfl | hx
        · cases hc : x.panics with
          | false => rfl
          | true => exact absurd hp (ha.2 hc t1)
        · exact ih.2 x hx

/-- Whether the rule panics in the main stage. -/
def Rule.panicsMain : Rule → Bool
  | .pass .context test _ _ => TestInstr.anyCompares test
  | .matchRule pre _ post _ _ => Pattern.anyReadsUnder 2 pre || Pattern.anyReadsUnder 2 post
  | _ => false

theorem insertion_solid {r : Anchored} {chars dots : Text} {before after withs} (d : Direction) (hc : chars ≠ []) (hd : dots ≠ []) :
    (r.insertion chars dots before after withs).Solid d := by
  cases d
  · exact hc
  · exact hd

theorem signOps_solid {r : Anchored} {d : Direction} {D : List Text} {dots : Cells} (h : dots ≠ []) :
    ∀ op ∈ r.signOps d D dots, op.Solid d ∧ op.panics = false := by
  intro op hop
  rw [Anchored.signOps] at hop
  split at hop
  · next hd =>
    simp only [List.mem_singleton] at hop
    subst hop
    cases d
    · simp at hd
    · exact ⟨cellsToText_ne h, rfl⟩
  · simp at hop

theorem digitOps_solid {r : Anchored} {d : Direction} {D : List Text} {c : Char} {dots : Cells} :
    ∀ op ∈ r.digitOps d D c dots, op.Solid d ∧ op.panics = false := by
  intro op hop
  unfold Anchored.digitOps at hop
  split at hop
  · split at hop
    · simp only [List.mem_singleton] at hop; subst hop; exact ⟨trivial, rfl⟩
    · simp at hop
  · simp at hop

theorem ops_solid {ctx : TableCtx} {d : Direction} {L : List Char} {D : List Text} {r : Anchored} {ops : List PrimOp}
    (hdefs : ctx.defs.Solid) (hr : r.rule.Solid) (h : r.ops ctx d L D = .ok ops) :
    (∀ op ∈ ops, op.Solid d) ∧ ((∃ op ∈ ops, op.panics = true) ↔ r.rule.panicsMain = true) := by
  suffices hs : (∀ op ∈ ops, op.Solid d ∧ op.panics = false) ∧ r.rule.panicsMain = false ∨
      (∃ op, ops = [op] ∧ op.Solid d ∧ op.panics = r.rule.panicsMain) by
    rcases hs with ⟨h1, h2⟩ | ⟨op, rfl, h1, h2⟩
    · refine ⟨fun op hop => (h1 op hop).1, ?_⟩
      rw [h2]
      simp only [Bool.false_eq_true, iff_false, not_exists, not_and, Bool.not_eq_true]
      exact fun op hop => (h1 op hop).2
    · simp [h1, h2]
  obtain ⟨rule, id⟩ := r
  simp only [Rule.Solid] at hr
  have one : ∀ op : PrimOp, [op] = ops → op.Solid d → op.panics = rule.panicsMain →
      (∀ op ∈ ops, op.Solid d ∧ op.panics = false) ∧ rule.panicsMain = false ∨
      (∃ op, ops = [op] ∧ op.Solid d ∧ op.panics = rule.panicsMain) := fun op h3 h1 h2 => Or.inr ⟨op, h3.symm, h1, h2⟩
  cases rule
  case undefined dots => simp only [Anchored.ops, Except.ok.injEq] at h; exact one _ h trivial rfl
  case charDef k c dots cons =>
    have hc : PrimOp.Solid d (.char c dots.toText (Rule.charDef k c dots cons).prec (Anchored.origin ⟨.charDef k c dots cons, id⟩)) :=
      cellsToText_ne hr
    cases k <;> simp only [Anchored.ops, Except.ok.injEq] at h
    case digit =>
      subst h
      refine Or.inl ⟨fun op hop => ?_, rfl⟩
      rw [List.mem_append] at hop
      rcases hop with hop | hop
      · split at hop
        · simp at hop
        · rw [List.mem_singleton] at hop; subst hop; exact ⟨hc, rfl⟩
      · exact digitOps_solid op hop
    case litdigit =>
      subst h
      refine Or.inl ⟨fun op hop => ?_, rfl⟩
      rw [List.mem_cons] at hop
      rcases hop with rfl | hop
      · exact ⟨hc, rfl⟩
      · exact digitOps_solid op hop
    case hyphen => subst h; exact Or.inl ⟨by simp, rfl⟩
    all_goals exact one _ h hc rfl
  case numsign dots => simp only [Anchored.ops, Except.ok.injEq] at h; subst h; exact Or.inl ⟨signOps_solid hr, rfl⟩
  case nonumsign dots _ => simp only [Anchored.ops, Except.ok.injEq] at h; subst h; exact Or.inl ⟨signOps_solid hr, rfl⟩
  case capsletter dots _ => simp only [Anchored.ops, Except.ok.injEq] at h; subst h; exact Or.inl ⟨signOps_solid hr, rfl⟩
  case begcapsword dots _ => simp only [Anchored.ops, Except.ok.injEq] at h; subst h; exact Or.inl ⟨signOps_solid hr, rfl⟩
  case endcapsword dots _ => simp only [Anchored.ops, Except.ok.injEq] at h; subst h; exact Or.inl ⟨signOps_solid hr, rfl⟩
  case contraction chars =>
    simp only [Anchored.ops] at h
    split at h
    · cases h
    · next ds hds =>
      rw [Except.ok.injEq] at h
      exact one _ h (insertion_solid d hr (braille_ne hdefs (dots := .implicit) trivial hr hds)) rfl
  case base name derived base =>
    simp only [Anchored.ops] at h
    split at h <;> rw [Except.ok.injEq] at h
    · next ds hds => exact one _ h (show ds ≠ [] from hdefs.get hds) rfl
    · subst h; exact Or.inl ⟨by simp, rfl⟩
  case comp6 chars dots =>
    simp only [Anchored.ops] at h
    split at h
    · cases h
    · next ds hds =>
      rw [Except.ok.injEq] at h
      refine one _ h ?_ rfl
      cases d
      · exact hr.1
      · exact braille_ne hdefs hr.2 hr.1 hds
  case text k chars dots cons withs =>
    simp only [Anchored.ops] at h
    split at h
    · cases h
    · next ds hds =>
      rw [Except.ok.injEq] at h
      subst h
      refine Or.inl ⟨fun op hop => ?_, rfl⟩
      rw [List.mem_map] at hop
      obtain ⟨e, -, rfl⟩ := hop
      exact ⟨insertion_solid d hr.1 (braille_ne hdefs hr.2 hr.1 hds), rfl⟩
  case syllable chars dots =>
    simp only [Anchored.ops] at h
    split at h
    · cases h
    · next ds hds =>
      rw [Except.ok.injEq] at h
      exact one _ h (insertion_solid d hr.1 (braille_ne hdefs hr.2 hr.1 hds)) rfl
  case endnum chars dots cons =>
    simp only [Anchored.ops] at h
    split at h
    · cases h
    · next ds hds =>
      rw [Except.ok.injEq] at h
      exact one _ h (insertion_solid d hr.1 (braille_ne hdefs hr.2 hr.1 hds)) rfl
  case largesign chars dots =>
    simp only [Anchored.ops, Except.ok.injEq] at h; exact one _ h (insertion_solid d hr.1 (cellsToText_ne hr.2)) rfl
  case joinword chars dots =>
    simp only [Anchored.ops, Except.ok.injEq] at h; exact one _ h (insertion_solid d hr.1 (cellsToText_ne hr.2)) rfl
  case lowword chars dots _ =>
    simp only [Anchored.ops, Except.ok.injEq] at h; exact one _ h (insertion_solid d hr.1 (cellsToText_ne hr.2)) rfl
  case begnum chars dots _ =>
    simp only [Anchored.ops, Except.ok.injEq] at h; exact one _ h (insertion_solid d hr.1 (cellsToText_ne hr.2)) rfl
  case midnum chars dots _ =>
    simp only [Anchored.ops, Except.ok.injEq] at h; exact one _ h (insertion_solid d hr.1 (cellsToText_ne hr.2)) rfl
  case prepunc chars dots _ =>
    simp only [Anchored.ops, Except.ok.injEq] at h
    split at h
    · exact one _ h (insertion_solid d hr.1 (cellsToText_ne hr.2)) rfl
    · subst h; exact Or.inl ⟨by simp, rfl⟩
  case postpunc chars dots _ =>
    simp only [Anchored.ops, Except.ok.injEq] at h
    split at h
    · exact one _ h (insertion_solid d hr.1 (cellsToText_ne hr.2)) rfl
    · subst h; exact Or.inl ⟨by simp, rfl⟩
  case matchRule pre chars post dots _ =>
    simp only [Anchored.ops] at h
    split at h
    · cases h
    · rw [Except.ok.injEq] at h
      exact one _ h hr rfl
  case pass k test action _ =>
    cases k <;> simp only [Anchored.ops, Except.ok.injEq] at h
    case context => exact one _ h hr rfl
    all_goals (subst h; exact Or.inl ⟨by simp, rfl⟩)
  all_goals (simp only [Anchored.ops, Except.ok.injEq] at h; subst h; exact Or.inl ⟨by simp, rfl⟩)

theorem ops_panic {ctx : TableCtx} {d : Direction} {L : List Char} {D : List Text} {r : Anchored} :
    r.ops ctx d L D ≠ .error .panic := by
  intro h
  obtain ⟨rule, id⟩ := r
  cases rule
  case charDef k c dots cons => cases k <;> simp [Anchored.ops] at h
  case pass k test action cons => cases k <;> simp [Anchored.ops] at h
  all_goals simp only [Anchored.ops] at h
  all_goals (try split at h)
  all_goals first
    | (next e he => rw [Except.error.injEq] at h; subst h; exact absurd he (braille_panic _ _))
    | cases h

theorem firstOps_solid {r : Anchored} (d : Direction) (hr : r.rule.Solid) : ∀ op ∈ r.firstOps, op.Solid d ∧ op.panics = false := by
  intro op hop
  unfold Anchored.firstOps at hop
  split at hop
  · next c dots he =>
    rw [List.mem_singleton] at hop
    subst hop
    rw [he] at hr
    exact ⟨cellsToText_ne hr, rfl⟩
  · next c dots cons he =>
    rw [List.mem_singleton] at hop
    subst hop
    rw [he] at hr
    exact ⟨cellsToText_ne hr, rfl⟩
  · simp at hop

/-! ## The main stage -/

theorem firstLoop_panic {ctx : TableCtx} {d : Direction} : ∀ {rules : List Anchored} {t : PrimaryTable} {s : Signs},
    t.direction = d → (∀ r ∈ rules, r.rule.Solid) →
    firstLoop ctx d rules (t, s) ≠ .error .panic ∧
    ∀ t' s', firstLoop ctx d rules (t, s) = .ok (t', s') → t'.direction = d ∧ s'.contractions = s.contractions
  | [], t, s, hd, _ => by
    refine ⟨by simp [firstLoop], fun t' s' h => ?_⟩
    rw [firstLoop, Except.ok.injEq, Prod.mk.injEq] at h
    obtain ⟨rfl, rfl⟩ := h
    exact ⟨hd, rfl⟩
  | r :: rs, t, s, hd, h => by
    have hs := firstOps_solid d (h r (by simp))
    have ha := applyAll_panic (ctx := ctx.prim d) hd fun op hop => (hs op hop).1
    rw [firstLoop]
    split
    · next e he =>
      refine ⟨fun hp => ?_, by simp⟩
      rw [Except.error.injEq] at hp
      subst hp
      obtain ⟨op, hop, hpan⟩ := ha.1 he
      rw [(hs op hop).2] at hpan
      cases hpan
    · next t1 he =>
      have ih := firstLoop_panic (ctx := ctx) (rules := rs) (s := s.first r) (ha.2 t1 he).1 fun x hx => h x (by simp [hx])
      refine ⟨ih.1, fun t' s' hl => ?_⟩
      obtain ⟨h1, h2⟩ := ih.2 t' s' hl
      refine ⟨h1, h2.trans ?_⟩
      obtain ⟨rule, id⟩ := r
      cases rule <;> rfl

theorem hyphenate_panic {sys : Sys} {s : Signs} {r : Anchored} : s.hyphenate sys r ≠ .error .panic := by
  unfold Signs.hyphenate
  split
  · split
    · simp
    · split <;> simp
  · simp

theorem step_contractions {classes : CharClasses} {d : Direction} {D : List Text} {s : Signs} {r : Anchored}
    (hr : r.rule.Solid) (hs : ∀ c ∈ s.contractions, c ≠ []) : ∀ c ∈ (s.step classes d D r).contractions, c ≠ [] := by
  obtain ⟨rule, id⟩ := r
  cases rule
  case contraction chars =>
    intro c hc
    simp only [Signs.step, List.mem_append, List.mem_singleton] at hc
    rcases hc with hc | rfl
    · exact hs c hc
    · exact hr
  all_goals exact hs

theorem secondLoop_panic {sys : Sys} {ctx : TableCtx} {d : Direction} {L : List Char} {D : List Text} (hdefs : ctx.defs.Solid) :
    ∀ {rules : List Anchored} {t : PrimaryTable} {s : Signs}, t.direction = d → (∀ r ∈ rules, r.rule.Solid) →
    (∀ c ∈ s.contractions, c ≠ []) →
    (secondLoop sys ctx d L D rules (t, s) = .error .panic → ∃ r ∈ rules, r.rule.panicsMain = true) ∧
    ∀ t' s', secondLoop sys ctx d L D rules (t, s) = .ok (t', s') →
      (∀ c ∈ s'.contractions, c ≠ []) ∧ ∀ r ∈ rules, r.rule.panicsMain = false
  | [], t, s, hd, _, hs => by
    refine ⟨by simp [secondLoop], fun t' s' h => ?_⟩
    rw [secondLoop, Except.ok.injEq, Prod.mk.injEq] at h
    obtain ⟨rfl, rfl⟩ := h
    exact ⟨hs, by simp⟩
  | r :: rs, t, s, hd, h, hs => by
    rw [secondLoop]
    split
    · next e he =>
      refine ⟨fun hp => ?_, by simp⟩
      rw [Except.error.injEq] at hp
      subst hp
      exact absurd he ops_panic
    · next ops ho =>
      have hsol := ops_solid hdefs (h r (by simp)) ho
      have ha := applyAll_panic (ctx := ctx.prim d) hd hsol.1
      split
      · next e he =>
        refine ⟨fun hp => ?_, by simp⟩
        rw [Except.error.injEq] at hp
        subst hp
        exact ⟨r, by simp, hsol.2.mp (ha.1 he)⟩
      · next t1 he =>
        split
        · next e hh =>
          refine ⟨fun hp => ?_, by simp⟩
          rw [Except.error.injEq] at hp
          subst hp
          exact absurd hh hyphenate_panic
        · next s1 hh =>
          have hc : ∀ c ∈ s1.contractions, c ≠ [] := by
            have hst := step_contractions (classes := ctx.classes) (d := d) (D := D) (h r (by simp)) hs
            unfold Signs.hyphenate at hh
            split at hh
            · split at hh
              · cases hh
              · split at hh
                · cases hh
                · rw [Except.ok.injEq] at hh; subst hh; exact hst
            · rw [Except.ok.injEq] at hh; subst hh; exact hst
          have ih := secondLoop_panic (sys := sys) (L := L) (D := D) hdefs (rules := rs) (s := s1) (ha.2 t1 he).1
            (fun x hx => h x (by simp [hx])) hc
          refine ⟨fun hp => ?_, fun t' s' hl => ?_⟩
          · obtain ⟨x, hx, hx'⟩ := ih.1 hp
            exact ⟨x, by simp [hx], hx'⟩
          · obtain ⟨h1, h2⟩ := ih.2 t' s' hl
            refine ⟨h1, fun x hx => ?_⟩
            rw [List.mem_cons] at hx
            rcases hx with rfl | hx
            · cases hp : x.rule.panicsMain with
              | false => rfl
              | true =>
                obtain ⟨op, hop, hp'⟩ := hsol.2.mpr hp
                rw [(ha.2 t1 he).2 op hop] at hp'
                cases hp'
            · exact h2 x hx

theorem insertAll_exists {ctx : CharClasses} {d : Direction} : ∀ {rs : List TrieRule} {t : Trie}, (∀ r ∈ rs, r.from d ≠ []) →
    ∃ t', Trie.insertAll ctx d rs t = some t'
  | [], t, _ => ⟨t, rfl⟩
  | r :: rs, t, h => by
    rw [Trie.insertAll, Trie.insert, if_neg (h r (by simp)), Option.bind_some]
    exact insertAll_exists fun x hx => h x (by simp [hx])

theorem contractionTrie_ok {ctx : TableCtx} {dots : Text} {origin : Origin} {cs : List Text} (h : ∀ c ∈ cs, c ≠ []) :
    ∃ t, contractionTrie ctx dots origin cs = .ok t := by
  obtain ⟨t, ht⟩ := insertAll_exists (ctx := ctx.classes) (d := .forward) (t := Trie.empty)
    (rs := cs.map (contractionRule dots origin)) (by
      intro r hr
      rw [List.mem_map] at hr
      obtain ⟨c, hc, rfl⟩ := hr
      exact h c hc)
  exact ⟨t, by rw [contractionTrie, ht]; rfl⟩

theorem indicators_panic {ctx : TableCtx} {s : Signs} (h : ∀ c ∈ s.contractions, c ≠ []) :
    s.indicators ctx ≠ .error .panic := by
  have h1 : ∃ l, s.letIndicator ctx = .ok l := by
    unfold Signs.letIndicator
    split
    · exact ⟨_, rfl⟩
    · next dots origin _ =>
      obtain ⟨t, ht⟩ := contractionTrie_ok (ctx := ctx) (dots := dots) (origin := origin) h
      rw [ht]
      exact ⟨_, rfl⟩
  have h2 : ∃ l, s.nocIndicator ctx = .ok l := by
    unfold Signs.nocIndicator
    split
    · exact ⟨_, rfl⟩
    · next dots origin _ =>
      split
      · exact ⟨_, rfl⟩
      · obtain ⟨t, ht⟩ := contractionTrie_ok (ctx := ctx) (dots := dots) (origin := origin) h
        rw [ht]
        exact ⟨_, rfl⟩
  obtain ⟨l1, h1⟩ := h1
  obtain ⟨l2, h2⟩ := h2
  rw [Signs.indicators, h1]
  simp only [h2]
  simp

theorem primary_panic {sys : Sys} {ctx : TableCtx} {d : Direction} {rules : List Anchored} (hdefs : ctx.defs.Solid)
    (h : ∀ r ∈ rules, r.rule.Solid) :
    (Primary.compile sys ctx d rules = .error .panic → ∃ r ∈ rules, r.rule.panicsMain = true) ∧
    ∀ p, Primary.compile sys ctx d rules = .ok p → ∀ r ∈ rules, r.rule.panicsMain = false := by
  have h1 := firstLoop_panic (ctx := ctx) (d := d) (rules := rules) (t := PrimaryTable.new d (ctx.prim d)) (s := Signs.new) rfl h
  unfold Primary.compile
  split
  · next e he =>
    refine ⟨fun hp => ?_, by simp⟩
    rw [Except.error.injEq] at hp
    subst hp
    exact absurd he h1.1
  · next s he =>
    obtain ⟨t, s⟩ := s
    obtain ⟨hd, hc⟩ := h1.2 t s he
    have h2 := secondLoop_panic (sys := sys) (L := litdigitChars d rules) (D := letterDotsOf d rules) hdefs hd h
      (by rw [hc]; simp [Signs.new])
    split
    · next e he2 =>
      refine ⟨fun hp => ?_, by simp⟩
      rw [Except.error.injEq] at hp
      subst hp
      exact h2.1 he2
    · next t' s' he2 =>
      obtain ⟨h3, h4⟩ := h2.2 t' s' he2
      have h5 := indicators_panic (ctx := ctx) (s := s'.finish sys ctx d rules) h3
      refine ⟨fun hp => ?_, fun p _ => h4⟩
      simp only at hp
      split at hp
      · next e he3 => rw [Except.error.injEq] at hp; subst hp; exact absurd he3 h5
      · cases hp

/-! ## The whole table -/

theorem mem_passRules {k : PassKind} {rules : List Anchored} {x : PassRule} :
    x ∈ passRules k rules ↔ ∃ r ∈ rules, ∃ cons, r.rule = .pass k x.test x.action cons ∧ x.origin = r.origin := by
  unfold passRules
  rw [List.mem_filterMap]
  constructor
  · rintro ⟨r, hr, h⟩
    refine ⟨r, hr, ?_⟩
    split at h
    · next k' test action cons he =>
      split at h
      · next hk =>
        rw [Option.some.injEq] at h
        subst h hk
        exact ⟨cons, he, rfl⟩
      · cases h
    · cases h
  · rintro ⟨r, hr, cons, he, ho⟩
    refine ⟨r, hr, ?_⟩
    rw [he]
    simp only [if_true, Option.some.injEq, ← ho]

theorem stage_panic {ctx : TableCtx} {d : Direction} {stage : Stage} {wrap : MultipassTable → Transform} {k : PassKind}
    (hk : k ≠ .context) {rules : List Anchored} (h : ∀ r ∈ rules, r.rule.Solid) :
    (compileStage ctx d stage wrap (passRules k rules) = .error .panic → ∃ r ∈ rules, r.rule.panics d = true) ∧
    (∀ ps, compileStage ctx d stage wrap (passRules k rules) = .ok ps →
      ∀ r ∈ rules, ∀ test action cons, r.rule = .pass k test action cons → r.rule.panics d = false) := by
  have hs : ∀ x ∈ passRules k rules, TestInstr.AllProper x.test := by
    intro x hx
    obtain ⟨r, hr, cons, he, -⟩ := mem_passRules.mp hx
    have := h r hr
    rw [he] at this
    exact this
  have hp := compileStage_panic (ctx := ctx) (d := d) (stage := stage) (wrap := wrap) hs
  have hpan : ∀ test action cons, (Rule.pass k test action cons).panics d =
      (TestInstr.anyCompares test && (d == .forward || action.any (·.consumesInput))) := by
    intro test action cons
    cases k <;> first | rfl | exact absurd rfl hk
  constructor
  · intro he
    obtain ⟨x, hx, h1, h2⟩ := hp.1 he
    obtain ⟨r, hr, cons, he, -⟩ := mem_passRules.mp hx
    refine ⟨r, hr, ?_⟩
    rw [he, hpan, h1]
    rcases h2 with rfl | h2
    · rfl
    · rw [h2]; simp
  · intro ps hok r hr test action cons he
    rw [he, hpan]
    cases hc : TestInstr.anyCompares test with
    | false => rfl
    | true =>
      obtain ⟨rfl, h2⟩ := hp.2 ps hok ⟨test, action, r.origin⟩ (mem_passRules.mpr ⟨r, hr, cons, he, rfl⟩) hc
      simp only at h2
      rw [h2]
      rfl

theorem panicsMain_panics {d : Direction} {r : Rule} (h : r.panicsMain = true) : r.panics d = true := by
  unfold Rule.panicsMain at h
  split at h
  · exact h
  · exact h
  · cases h

/-- C42, exactly, for the rules the parser can produce: if compiling the table for a direction panics, some rule for that
direction is one of those named by `Rule.panics`; and if there is such a rule the table does not compile. -/
theorem pipeline_panic {sys : Sys} {rules : List Anchored} {d : Direction} (h : ∀ r ∈ rules, r.rule.Solid) :
    (Pipeline.compile sys rules d = .error .panic → ∃ r ∈ allowedRules rules d, r.rule.panics d = true) ∧
    (∀ steps, Pipeline.compile sys rules d = .ok steps → ∀ r ∈ allowedRules rules d, r.rule.panics d = false) := by
  have hf : ∀ r ∈ rules.filter (·.rule.isDirection d), r.rule.Solid := fun r hr => h r (List.mem_filter.mp hr).1
  have hm := primary_panic (sys := sys) (d := d) (compile_solid (alpha := sys.alpha) hf) hf
  have hst : ∀ (stage : Stage) (wrap : MultipassTable → Transform) (k : PassKind), k ≠ .context → _ :=
    fun stage wrap k hk => stage_panic (ctx := TableCtx.compile sys.alpha rules) (d := d) (stage := stage) (wrap := wrap) hk hf
  unfold Pipeline.compile allowedRules
  simp only
  split
  · next e he =>
    refine ⟨fun hp => ?_, by simp⟩
    rw [Except.error.injEq] at hp; subst hp
    exact (hst _ _ _ (by simp)).1 he
  · next c1 he1 =>
    split
    · next e he =>
      refine ⟨fun hp => ?_, by simp⟩
      rw [Except.error.injEq] at hp; subst hp
      obtain ⟨r, hr, hpan⟩ := hm.1 he
      exact ⟨r, hr, panicsMain_panics hpan⟩
    · next p hep =>
      split
      · next e he =>
        refine ⟨fun hp => ?_, by simp⟩
        rw [Except.error.injEq] at hp; subst hp
        exact (hst _ _ _ (by simp)).1 he
      · next c2 he2 =>
        split
        · next e he =>
          refine ⟨fun hp => ?_, by simp⟩
          rw [Except.error.injEq] at hp; subst hp
          exact (hst _ _ _ (by simp)).1 he
        · next c3 he3 =>
          split
          · next e he =>
            refine ⟨fun hp => ?_, by simp⟩
            rw [Except.error.injEq] at hp; subst hp
            exact (hst _ _ _ (by simp)).1 he
          · next c4 he4 =>
            refine ⟨by simp, fun steps _ r hr => ?_⟩
            have hmr := hm.2 p hep r hr
            cases hrule : r.rule
            case pass k test action cons =>
              rw [← hrule]
              cases k
              case correct => exact (hst _ _ _ (by simp)).2 _ he1 r hr _ _ _ hrule
              case context => rw [hrule] at hmr ⊢; exact hmr
              case pass2 => exact (hst _ _ _ (by simp)).2 _ he2 r hr _ _ _ hrule
              case pass3 => exact (hst _ _ _ (by simp)).2 _ he3 r hr _ _ _ hrule
              case pass4 => exact (hst _ _ _ (by simp)).2 _ he4 r hr _ _ _ hrule
            case matchRule pre chars post dots cons => rw [hrule] at hmr; exact hmr
            all_goals rfl

/-! ## From the text of the table -/

theorem mem_anchor {rules : List (Rule × Loc)} {r : Anchored} (h : r ∈ anchor rules) : ∃ loc, (r.rule, loc) ∈ rules := by
  rw [anchor, List.mem_map] at h
  obtain ⟨⟨⟨rule, loc⟩, i⟩, hm, rfl⟩ := h
  exact ⟨loc, List.mem_of_getElem? (List.mem_zipIdx_iff_getElem?.mp hm)⟩

theorem mem_anchor_of {rules : List (Rule × Loc)} {rule : Rule} {loc : Loc} (h : (rule, loc) ∈ rules) :
    ∃ r ∈ anchor rules, r.rule = rule := by
  obtain ⟨i, hi⟩ := List.getElem?_of_mem h
  exact ⟨⟨rule, i⟩, List.mem_map.mpr ⟨((rule, loc), i), List.mem_zipIdx_iff_getElem?.mpr hi, rfl⟩, rfl⟩

/-- The rules of an accepted table are those of its lines. -/
theorem mem_parseTable {text : Text} {path : Option Text} {rules : List (Rule × Loc)} (h : parseTable text path = .ok rules)
    (rule : Rule) : (∃ loc, (rule, loc) ∈ rules) ↔ ∃ line ∈ lines text, isRuleLine line = true ∧ parseLine line = some rule := by
  have := C32_rules_of_lines _ _ _ h
  constructor
  · rintro ⟨loc, hm⟩
    have hm' : some rule ∈ rules.map (fun r => some r.1) := List.mem_map.mpr ⟨_, hm, rfl⟩
    rw [this] at hm'
    obtain ⟨line, hl, hp⟩ := List.mem_map.mp hm'
    obtain ⟨h1, h2⟩ := List.mem_filter.mp hl
    exact ⟨line, h1, h2, hp⟩
  · rintro ⟨line, h1, h2, h3⟩
    have hm' : some rule ∈ ((lines text).filter isRuleLine).map parseLine :=
      List.mem_map.mpr ⟨line, List.mem_filter.mpr ⟨h1, h2⟩, h3⟩
    rw [← this] at hm'
    obtain ⟨r, hr, he⟩ := List.mem_map.mp hm'
    rw [Option.some.injEq] at he
    exact ⟨r.2, by rw [← he]; exact hr⟩

theorem parseTable_solid {text : Text} {path : Option Text} {rules : List (Rule × Loc)} (h : parseTable text path = .ok rules) :
    ∀ r ∈ rules, r.1.Solid := by
  intro r hr
  obtain ⟨line, -, -, hp⟩ := (mem_parseTable h r.1).mp ⟨r.2, hr⟩
  exact parseLine_solid hp

/-- C42: creating a translator from the text of a table panics only because of a line, not for the other direction, with a
multipass rule comparing a variable by other than equality, or with a match rule with text inside two negations. -/
theorem C42_panic_only_partial (sys : Sys) (text : Text) (d : Direction)
    (h : translatorFromSource sys text d = .error (.compile .panic)) :
    ∃ line ∈ lines text, ∃ rule, parseLine line = some rule ∧ rule.isDirection d = true ∧ rule.panics d = true := by
  cases hp : parseTable text none with
  | error es => simp [translatorFromSource, hp, fromTableSource] at h
  | ok rules =>
    simp only [translatorFromSource, hp, fromTableSource] at h
    split at h
    · cases h
    · split at h
      · next e he =>
        rw [Except.error.injEq, NewErr.compile.injEq] at h
        subst h
        have hs : ∀ r ∈ anchor rules, r.rule.Solid := by
          intro r hr
          obtain ⟨loc, hm⟩ := mem_anchor hr
          exact parseTable_solid hp _ hm
        obtain ⟨r, hr, hpan⟩ := (pipeline_panic hs).1 he
        rw [allowedRules, List.mem_filter] at hr
        obtain ⟨line, hl, -, hpl⟩ := (mem_parseTable hp r.rule).mp (mem_anchor hr.1)
        exact ⟨line, hl, r.rule, hpl, hr.2, hpan⟩
      · cases h

/-- C42: and a table with such a line never gives a translator. -/
theorem C42_no_translator (sys : Sys) (text : Text) (d : Direction) (line : Text) (hl : line ∈ lines text)
    (hr : isRuleLine line = true) (rule : Rule) (hp : parseLine line = some rule) (hd : rule.isDirection d = true)
    (hpan : rule.panics d = true) : ∀ steps, translatorFromSource sys text d ≠ .ok steps := by
  intro steps h
  cases hpt : parseTable text none with
  | error es => simp [translatorFromSource, hpt, fromTableSource] at h
  | ok rules =>
    simp only [translatorFromSource, hpt, fromTableSource] at h
    split at h
    · cases h
    · split at h
      · cases h
      · next p he =>
        have hs : ∀ r ∈ anchor rules, r.rule.Solid := by
          intro r hr
          obtain ⟨loc, hm⟩ := mem_anchor hr
          exact parseTable_solid hpt _ hm
        obtain ⟨loc, hm⟩ := (mem_parseTable hpt rule).mpr ⟨line, hl, hr, hp⟩
        obtain ⟨r, hr, rfl⟩ := mem_anchor_of hm
        have := (pipeline_panic hs).2 p he r (List.mem_filter.mpr ⟨hr, hd⟩)
        rw [hpan] at this
        cases this

/-- Every table made of accepted lines without such rules compiles or reports an error. -/
theorem C42_no_panic_partial (sys : Sys) (text : Text) (d : Direction)
    (h : ∀ line ∈ lines text, ∀ rule, parseLine line = some rule → rule.panics d = false) :
    translatorFromSource sys text d ≠ .error (.compile .panic) := by
  intro he
  obtain ⟨line, hl, rule, hp, -, hpan⟩ := C42_panic_only_partial sys text d he
  rw [h line hl rule hp] at hpan
  cases hpan

/-- A line that compares a variable. -/
def comparingRule : Rule := .pass .context [.varTest 1 .lt 5, .string ['a']] [.dots [Char.ofNat 0x2801]] RuleCons.none

/-- C42 does not hold: a table of one accepted line, which compares a variable, panics. -/
theorem C42_comparison_wrong (sys : Sys) (d : Direction) :
    translatorFromSource sys "context #1<5\"a\" @1".toList d = .error (.compile .panic) := by
  have h : parseTable "context #1<5\"a\" @1".toList none = .ok [(comparingRule, ⟨none, 1⟩)] := by decide +kernel
  unfold translatorFromSource
  rw [h]
  cases d <;> rfl

/-- The hypothesis of `C42_no_panic_partial` is met by a table with multipass and match rules. -/
example : ∀ line ∈ lines "letter a 1\ncontext #1=5\"a\" @1\nmatch !b a %a 2".toList, ∀ rule, parseLine line = some rule →
    rule.panics .forward = false := by
  intro line hl
  have : (lines "letter a 1\ncontext #1=5\"a\" @1\nmatch !b a %a 2".toList).all (fun line =>
    match parseLine line with
    | some rule => !rule.panics .forward
    | none => false) = true := by decide +kernel
  intro rule hp
  have := List.all_eq_true.mp this line hl
  simp only [hp] at this
  simpa using this

/-! ## From files -/

theorem inlined_solid {fs : Files} {I : Text → List (Rule × Loc) → Prop} (hI : ∀ f o, I f o → ∀ r ∈ o, r.1.Solid)
    {rules out : List (Rule × Loc)} (h : Inlined fs I rules out) (hr : ∀ r ∈ rules, r.1.Solid) : ∀ r ∈ out, r.1.Solid := by
  induction h with
  | done => exact hr
  | rule r loc rest out hn more ih =>
    intro x hx
    rw [List.mem_cons] at hx
    rcases hx with rfl | hx
    · exact hr _ (by simp)
    · exact ih (fun y hy => hr y (by simp [hy])) x hx
  | dictionary file path loc rest out hd hf more ih =>
    intro x hx
    rw [List.mem_cons] at hx
    rcases hx with rfl | hx
    · trivial
    · exact ih (fun y hy => hr y (by simp [hy])) x hx
  | table file loc rest inner out hd hi more ih =>
    intro x hx
    rw [List.mem_append] at hx
    rcases hx with hx | hx
    · exact hI _ _ hi x hx
    · exact ih (fun y hy => hr y (by simp [hy])) x hx

theorem expandsTo_solid {fs : Files} : ∀ {n : Nat} {file : Text} {out : List (Rule × Loc)}, ExpandsTo fs n file out →
    ∀ r ∈ out, r.1.Solid
  | 0, _, _, h => h.elim
  | n + 1, file, out, h => by
    obtain ⟨path, rules, -, -, ht, hi⟩ := h
    refine inlined_solid (fun f o h => expandsTo_solid h) hi ?_
    rw [tableFile] at ht
    split at ht
    · cases ht
    · split at ht
      · next rules' hp => rw [Except.ok.injEq] at ht; subst ht; exact parseTable_solid hp
      · cases ht

theorem allTables_solid {fs : Files} : ∀ {files : List Text} {rules : List (Rule × Loc)}, allTables fs files = .ok rules →
    ∀ r ∈ rules, r.1.Solid
  | [], rules, h => by rw [allTables, Except.ok.injEq] at h; subst h; simp
  | file :: files, rules, h => by
    rw [allTables] at h
    split at h
    · cases h
    · next rs he =>
      split at h
      · cases h
      · next more hm =>
        rw [Except.ok.injEq] at h
        subst h
        intro r hr
        rw [List.mem_append] at hr
        rcases hr with hr | hr
        · exact expandsTo_solid (expandTable_sound fs _ _ _ _ he) r hr
        · exact allTables_solid hm r hr

/-- C42 for tables in files: a panic comes from a rule, of one of the files, of the two kinds. -/
theorem C42_files_panic_only_partial (sys : Sys) (fs : Files) (files : List Text) (d : Direction) (rules : List (Rule × Loc))
    (hr : allTables fs files = .ok rules) (h : translatorNew sys fs files d = .error (.compile .panic)) :
    ∃ r ∈ rules, r.1.isDirection d = true ∧ r.1.panics d = true := by
  simp only [translatorNew, hr] at h
  split at h
  · next e he =>
    rw [Except.error.injEq, NewErr.compile.injEq] at h
    subst h
    obtain ⟨r, hr', hpan⟩ := (pipeline_panic (fun r hx => by
      obtain ⟨loc, hm⟩ := mem_anchor hx
      exact allTables_solid hr _ hm)).1 he
    rw [allowedRules, List.mem_filter] at hr'
    obtain ⟨loc, hm⟩ := mem_anchor hr'.1
    exact ⟨_, hm, hr'.2, hpan⟩
  · cases h

end Louis
