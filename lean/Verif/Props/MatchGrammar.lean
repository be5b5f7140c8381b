import Verif.Props.TestGrammar

/-!
# C55: the parser of match patterns accepts exactly its grammar
-/

namespace Louis

/-! ## Sets -/

theorem pSetFrom_sound : ∀ (s : Text) (acc cs : List Char) (r : Text), pSetFrom acc s = some (cs, r) →
    ∃ body ds, s = body ++ ']' :: r ∧ SetSrc body ds ∧ cs = ds.foldl addNew acc := by
  intro s
  induction hn : s.length using Nat.strongRecOn generalizing s with
  | ind n ih =>
    intro acc cs r h
    rw [pSetFrom.eq_def] at h
    split at h
    · cases h
    · cases h; exact ⟨[], [], rfl, .done, rfl⟩
    · rename_i s
      obtain ⟨body, ds, rfl, hs, rfl⟩ := ih s.length (by rw [← hn]; simp; omega) s rfl _ _ _ h
      exact ⟨'\\' :: ']' :: body, ']' :: ds, rfl, .escaped _ _ _ (by simp) hs, rfl⟩
    · rename_i s
      obtain ⟨body, ds, rfl, hs, rfl⟩ := ih s.length (by rw [← hn]; simp; omega) s rfl _ _ _ h
      exact ⟨'\\' :: '(' :: body, '(' :: ds, rfl, .escaped _ _ _ (by simp) hs, rfl⟩
    · rename_i s
      obtain ⟨body, ds, rfl, hs, rfl⟩ := ih s.length (by rw [← hn]; simp; omega) s rfl _ _ _ h
      exact ⟨'\\' :: ')' :: body, ')' :: ds, rfl, .escaped _ _ _ (by simp) hs, rfl⟩
    · cases h
    · rename_i c s h1 _ _ _ h5
      obtain ⟨body, ds, rfl, hs, rfl⟩ := ih s.length (by rw [← hn]; simp) s rfl _ _ _ h
      exact ⟨c :: body, c :: ds, rfl, .plain _ _ _ ⟨h1, h5⟩ hs, rfl⟩

theorem pSetFrom_complete {body : Text} {ds : List Char} (h : SetSrc body ds) : ∀ (acc : List Char) (r : Text),
    pSetFrom acc (body ++ ']' :: r) = some (ds.foldl addNew acc, r) := by
  induction h with
  | done => intro acc r; simp [pSetFrom]
  | plain c s cs hc _ ih =>
    intro acc r
    rw [List.cons_append, pSetFrom.eq_def]
    split
    · rename_i h; cases h
    · rename_i h; cases h; exact absurd rfl hc.1
    · rename_i h; exact absurd (List.cons.inj h).1 hc.2
    · rename_i h; exact absurd (List.cons.inj h).1 hc.2
    · rename_i h; exact absurd (List.cons.inj h).1 hc.2
    · rename_i h; exact absurd (List.cons.inj h).1 hc.2
    · rename_i h; cases h; exact ih _ _
  | escaped c s cs hc _ ih =>
    intro acc r
    simp only [List.mem_cons, List.not_mem_nil, or_false] at hc
    rcases hc with rfl | rfl | rfl <;> exact ih _ _

/-! ## Attributes -/

theorem pAttrsFrom_sound : ∀ (s : Text) (acc attrs : List Attr) (r : Text), pAttrsFrom acc s = some (attrs, r) →
    ∃ (cs : Text) (as : List Attr), s = cs ++ ']' :: r ∧ cs.map matchAttr = as.map some ∧ attrs = as.foldl addNew acc := by
  intro s
  induction s with
  | nil => intro acc attrs r h; cases h
  | cons c s ih =>
    intro acc attrs r h
    rw [pAttrsFrom.eq_def] at h
    split at h
    · rename_i heq; cases heq
    · rename_i heq; cases heq; cases h; exact ⟨[], [], rfl, rfl, rfl⟩
    · rename_i heq
      cases heq
      split at h
      · cases h
      · rename_i a ha
        obtain ⟨cs, as, rfl, hm, rfl⟩ := ih _ _ _ h
        exact ⟨c :: cs, a :: as, rfl, by simp [ha, hm], rfl⟩

theorem pAttrsFrom_complete : ∀ (cs : Text) (as acc : List Attr) (r : Text), cs.map matchAttr = as.map some →
    pAttrsFrom acc (cs ++ ']' :: r) = some (as.foldl addNew acc, r) := by
  intro cs
  induction cs with
  | nil =>
    intro as acc r h
    cases as with
    | nil => simp [pAttrsFrom]
    | cons a as => simp at h
  | cons c cs ih =>
    intro as acc r h
    cases as with
    | nil => simp at h
    | cons a as =>
      simp only [List.map_cons, List.cons.injEq] at h
      rw [List.cons_append, pAttrsFrom.eq_def]
      split
      · rename_i heq; cases heq
      · rename_i heq; cases heq; have hn : matchAttr ']' = none := by decide
        rw [hn] at h; cases h.1
      · rename_i heq; cases heq; rw [h.1]; exact ih _ _ _ h.2

theorem pAttributes_sound {side : Side} {s r : Text} {p : Pattern} (h : pAttributes side s = some (p, r)) :
    ∃ src, '%' :: s = src ++ r ∧ InnerSrc side src p ∧ p.endsOpen = false ∧ p.passesQuantifier = false := by
  have hopen : ∀ as, (attrPattern side as).endsOpen = false ∧ (attrPattern side as).passesQuantifier = false := by
    intro as; unfold attrPattern; split
    · split <;> exact ⟨rfl, rfl⟩
    · exact ⟨rfl, rfl⟩
  rw [pAttributes.eq_def] at h
  split at h
  · split at h
    · cases h
    · rename_i attrs s' ha
      split at h
      · cases h
      · rename_i hne
        cases h
        obtain ⟨cs, as, rfl, hm, rfl⟩ := pAttrsFrom_sound _ _ _ _ ha
        refine ⟨'%' :: '[' :: cs ++ [']'], by simp, .attrs cs as ?_ hm, hopen _⟩
        rintro rfl
        cases as with
        | nil => exact hne rfl
        | cons a as => simp at hm
  · rename_i c s' _
    obtain ⟨a, ha, he⟩ := Option.map_eq_some_iff.mp h
    cases he
    exact ⟨['%', c], rfl, .attr c a ha, hopen _⟩
  · cases h

/-! ## Quantifiers -/

/-- A character that is no quantifier, or no character. -/
def NoQuantifier (r : Text) : Prop := ∀ c, r.head? = some c → c ≠ '?' ∧ c ≠ '*' ∧ c ≠ '+'

/-- A special character, or no character. -/
def SpecialNext (r : Text) : Prop := ∀ c, r.head? = some c → isSpecial c = true

theorem pQuantifier_none {p : Pattern} {r : Text} (h : NoQuantifier r) : pQuantifier p r = (p, r) := by
  rw [pQuantifier.eq_def]
  split
  · exact absurd rfl (h _ rfl).1
  · exact absurd rfl (h _ rfl).2.1
  · exact absurd rfl (h _ rfl).2.2
  · rfl

theorem pQuantifier_cases (p : Pattern) (s : Text) :
    (pQuantifier p s = (p, s) ∧ NoQuantifier s) ∨
    ∃ c q r, s = c :: r ∧ PatternQuantifier c p q ∧ pQuantifier p s = (q, r) := by
  rw [pQuantifier.eq_def]
  split
  · exact .inr ⟨_, _, _, rfl, .optional p, rfl⟩
  · exact .inr ⟨_, _, _, rfl, .zeroOrMore p, rfl⟩
  · exact .inr ⟨_, _, _, rfl, .oneOrMore p, rfl⟩
  · rename_i h1 h2 h3
    refine .inl ⟨rfl, ?_⟩
    intro c hc
    cases s with
    | nil => cases hc
    | cons d s =>
      simp at hc; subst hc
      refine ⟨?_, ?_, ?_⟩ <;> rintro rfl
      · exact h1 _ rfl
      · exact h2 _ rfl
      · exact h3 _ rfl

theorem PatternQuantifier.isQuantified {c : Char} {p q : Pattern} (h : PatternQuantifier c p q) :
    q.isQuantified = true ∧ q.endsOpen = false ∧ q.isNegation = false ∧ q.passesQuantifier = false := by
  cases h <;> exact ⟨rfl, rfl, rfl, rfl⟩

theorem pQuantifier_char {c : Char} {p q : Pattern} (h : PatternQuantifier c p q) (r : Text) :
    pQuantifier p (c :: r) = (q, r) := by cases h <;> rfl

/-! ## What is accepted is in the grammar -/

/-- What the parsers of patterns ensure of the remaining text. -/
structure Ends (p : Pattern) (r : Text) : Prop where
  openEnd : p.endsOpen = true → SpecialNext r
  passes : p.passesQuantifier = true → NoQuantifier r

theorem isNegation_of {p : Pattern} (h : ∀ q, p ≠ .negate q) : p.isNegation = false := by
  cases p <;> first | rfl | exact absurd rfl (h _)

theorem characters_head {c : Char} {s : Text} (h : ¬ isSpecial c = true) :
    InnerSrc side ((c :: s).takeWhile (!isSpecial ·)) (.characters ((c :: s).takeWhile (!isSpecial ·))) := by
  refine .characters _ ?_ ?_
  · rw [List.takeWhile_cons, if_pos (by simpa using h)]; simp
  · intro d hd; simpa using takeWhile_all _ _ d hd

/-- What may follow a sequence. -/
def SequenceEnd (r : Text) : Prop := ∀ c, r.head? = some c → c = '|' ∨ c = ')'

theorem patterns_sound (side : Side) (n : Nat) :
    (∀ s p r, pInner side n s = .ok (p, r) → ∃ src, s = src ++ r ∧ InnerSrc side src p ∧ Ends p r) ∧
    (∀ s p r, pQuantified side n s = .ok (p, r) → ∃ src, s = src ++ r ∧ QuantifiedSrc side src p ∧ Ends p r ∧
      (p.isQuantified = false → NoQuantifier r)) ∧
    (∀ s ps r, pSequence side n s = .ok (ps, r) → ∃ src, s = src ++ r ∧ SequenceSrc side src ps ∧ SequenceEnd r) ∧
    (∀ s ps r, pEither side n s = .ok (ps, r) → ps ≠ [] → ∃ src, s = src ++ r ∧ EitherSrc side src ps) ∧
    (∀ left s ps r, pEitherMore side n left s = .ok (ps, r) → ∃ src, s = src ++ r ∧ AlternativesSrc side left src ps) := by
  induction n with
  | zero =>
    refine ⟨?_, ?_, ?_, ?_, ?_⟩
    · intro s p r h; rw [pInner] at h; cases h
    · intro s p r h; rw [pQuantified] at h; cases h
    · intro s p r h; rw [pSequence] at h; cases h
    · intro s p r h; rw [pEither] at h; cases h
    · intro l s p r h; rw [pEitherMore] at h; cases h
  | succ n ih =>
    obtain ⟨ih1, ih2, ih3, ih4, ih5⟩ := ih
    refine ⟨?_, ?_, ?_, ?_, ?_⟩
    · intro s p r h
      cases s with
      | nil => rw [pInner] at h; cases h
      | cons c s =>
        rw [pInner] at h
        split at h
        · subst c; cases h; exact ⟨['.'], rfl, .any, ⟨by simp [Pattern.endsOpen], by simp [Pattern.passesQuantifier]⟩⟩
        split at h
        · subst c
          obtain ⟨src, hs, hsrc, ho⟩ := pAttributes_sound (orReject_ok h)
          exact ⟨src, hs, hsrc, ⟨by simp [ho], by simp [ho]⟩⟩
        split at h
        · rename_i hc; cases h
          exact ⟨[c], rfl, .boundary c (.inl hc), ⟨by simp [Pattern.endsOpen], by simp [Pattern.passesQuantifier]⟩⟩
        split at h
        · rename_i hc; cases h
          exact ⟨[c], rfl, .boundary c (.inr hc), ⟨by simp [Pattern.endsOpen], by simp [Pattern.passesQuantifier]⟩⟩
        split at h
        · subst c
          split at h
          · cases h
          · cases h
          · rename_i p' s' hn hq
            cases h
            obtain ⟨src, rfl, hsrc, hends, hquant⟩ := ih2 _ _ _ hq
            refine ⟨'!' :: src, rfl, .negate src p' hsrc (isNegation_of fun q e => hn q e), ⟨?_, ?_⟩⟩
            · intro ho; exact hends.openEnd ho
            · intro hp; exact hquant (by simpa [Pattern.passesQuantifier] using hp)
        split at h
        · subst c
          split at h
          · cases h
          · rename_i cs s' hset
            split at h
            · cases h
            · rename_i hne
              cases h
              obtain ⟨body, ds, rfl, hs, rfl⟩ := pSetFrom_sound _ _ _ _ hset
              refine ⟨'[' :: body ++ [']'], by simp, .set body ds ?_ hs,
                ⟨by simp [Pattern.endsOpen], by simp [Pattern.passesQuantifier]⟩⟩
              rintro rfl
              exact hne rfl
        split at h
        · subst c
          split at h
          · cases h
          · rename_i ps s' heq
            split at h
            · cases h
            · rename_i hne
              cases h
              obtain ⟨src, rfl, hsrc⟩ := ih4 _ _ _ heq (by intro e; rw [e] at hne; exact hne rfl)
              exact ⟨'(' :: src ++ [')'], by simp, .group src ps hsrc,
                ⟨by simp [Pattern.endsOpen], by simp [Pattern.passesQuantifier]⟩⟩
          · cases h
        split at h
        · cases h
        · rename_i hc
          cases h
          refine ⟨_, List.takeWhile_append_dropWhile.symm, characters_head hc,
            ⟨?_, by simp [Pattern.passesQuantifier]⟩⟩
          intro _ d hd
          have := dropWhile_head _ _ d hd
          simpa using this
    · intro s p r h
      rw [pQuantified] at h
      split at h
      · cases h
      · rename_i p' s' hin
        obtain ⟨src, rfl, hsrc, hends⟩ := ih1 _ _ _ hin
        rcases pQuantifier_cases p' s' with ⟨he, hno⟩ | ⟨c, q, r', rfl, hc, he⟩
        · rw [he] at h
          cases h
          exact ⟨src, rfl, .plain src p hsrc, hends, fun _ => hno⟩
        · rw [he] at h
          cases h
          have := hc.isQuantified
          refine ⟨src ++ [c], by simp, .quantified src p' p c hsrc hc ?_, ⟨by simp [this.2.1], by simp [this.2.2.2]⟩,
            by simp [this.1]⟩
          cases hp : p'.passesQuantifier with
          | false => rfl
          | true =>
            have hq := hends.passes hp c rfl
            cases hc <;> simp at hq
    · intro s ps r h
      cases s with
      | nil => rw [pSequence] at h; cases h; exact ⟨[], rfl, .nil, by intro c hc; simp at hc⟩
      | cons c s =>
        rw [pSequence] at h
        split at h
        · rename_i hc; cases h; exact ⟨[], rfl, .nil, by intro d hd; simp at hd; subst hd; exact hc⟩
        · split at h
          · cases h
          · rename_i p s' hp
            obtain ⟨src, hs, hsrc, hends, _⟩ := ih2 _ _ _ hp
            split at h
            · cases h
            · rename_i ps' s'' hps
              cases h
              obtain ⟨src', rfl, hseq, hend⟩ := ih3 _ _ _ hps
              refine ⟨src ++ src', by rw [hs]; simp, .cons src src' p ps' hsrc hseq ?_, hend⟩
              intro ho d hd
              refine hends.openEnd ho d ?_
              cases src' with
              | nil => cases hd
              | cons e src' => simpa using hd
    · intro s ps r h hne
      rw [pEither] at h
      split at h
      · cases h
      · rename_i hbar
        split at h
        · cases h
        · rename_i left s' hseq
          obtain ⟨src, rfl, hsrc, hend⟩ := ih3 _ _ _ hseq
          obtain ⟨src', rfl, halt⟩ := ih5 _ _ _ _ h
          refine ⟨src ++ src', by simp, .intro src src' left ps hsrc ?_ halt⟩
          rintro rfl
          cases hsrc
          cases halt with
          | done => exact hne rfl
          | alternative right out src rest h' hne' more => simp at hbar
    · intro left s ps r h
      cases s with
      | nil => rw [pEitherMore] at h; cases h; exact ⟨[], rfl, .done _⟩
      | cons c s =>
        rw [pEitherMore] at h
        split at h
        · subst c
          split at h
          · cases h
          · rename_i right s' hseq
            split at h
            · cases h
            · rename_i hne
              obtain ⟨src, rfl, hsrc, _⟩ := ih3 _ _ _ hseq
              obtain ⟨src', rfl, halt⟩ := ih5 _ _ _ _ h
              refine ⟨'|' :: src ++ src', by simp, .alternative left right ps src src' hsrc ?_ halt⟩
              intro e; rw [e] at hne; exact hne rfl
        · cases h; exact ⟨[], rfl, .done _⟩

/-! ## What is in the grammar is accepted -/

/-- The characters a pattern starts with. -/
def startsPattern (c : Char) : Bool := !(['*', '?', '+', '|', ')', ']', '\\'].contains c)

theorem InnerSrc.head {side : Side} {src : Text} {p : Pattern} (h : InnerSrc side src p) :
    ∃ c es, src = c :: es ∧ startsPattern c = true := by
  cases h with
  | boundary c h => exact ⟨c, [], rfl, by rcases h with rfl | rfl <;> decide⟩
  | characters s hne h =>
    cases src with
    | nil => exact absurd rfl hne
    | cons c es =>
      refine ⟨c, es, rfl, ?_⟩
      have := h c (by simp)
      cases hs : startsPattern c with
      | true => rfl
      | false =>
        simp only [startsPattern, Bool.not_eq_false', List.contains_eq_mem, decide_eq_true_eq, List.mem_cons, List.not_mem_nil,
          or_false] at hs
        rcases hs with rfl | rfl | rfl | rfl | rfl | rfl | rfl <;> exact absurd this (by decide)
  | _ => exact ⟨_, _, rfl, by decide⟩

theorem QuantifiedSrc.head {side : Side} {src : Text} {p : Pattern} (h : QuantifiedSrc side src p) :
    ∃ c es, src = c :: es ∧ startsPattern c = true := by
  cases h with
  | plain _ _ h => exact h.head
  | quantified src p q c h _ _ =>
    obtain ⟨d, es, rfl, hd⟩ := h.head
    exact ⟨d, es ++ [c], rfl, hd⟩

theorem startsPattern_facts {c : Char} (h : startsPattern c = true) : c ≠ '?' ∧ c ≠ '*' ∧ c ≠ '+' ∧ c ≠ '|' ∧ c ≠ ')' := by
  refine ⟨?_, ?_, ?_, ?_, ?_⟩ <;> rintro rfl <;> exact absurd h (by decide)

theorem SequenceSrc.head {side : Side} {src : Text} {ps : List Pattern} (h : SequenceSrc side src ps) :
    ∀ c, src.head? = some c → startsPattern c = true := by
  cases h with
  | nil => intro c hc; cases hc
  | cons src rest p ps h _ _ =>
    obtain ⟨d, es, rfl, hd⟩ := h.head
    intro c hc
    simp at hc; subst hc; exact hd

theorem InnerSrc.not_quantified {side : Side} {src : Text} {p : Pattern} (h : InnerSrc side src p) : p.isQuantified = false := by
  have hattr : ∀ as, (attrPattern side as).isQuantified = false := by
    intro as; unfold attrPattern; split
    · split <;> rfl
    · rfl
  cases h <;> first | rfl | exact hattr _

theorem head_append {r s : Text} {c : Char} (h : (r ++ s).head? = some c) : r.head? = some c ∨ (r = [] ∧ s.head? = some c) := by
  cases r with
  | nil => exact .inr ⟨rfl, h⟩
  | cons d r => exact .inl h

theorem AlternativesSrc.head {side : Side} {left out : List Pattern} {src : Text} (h : AlternativesSrc side left src out) :
    ∀ c, src.head? = some c → c = '|' := by
  cases h with
  | done => intro c hc; cases hc
  | alternative => intro c hc; simp at hc; exact hc.symm

/-- What may follow alternatives. -/
def EitherEnd (r : Text) : Prop := ∀ c, r.head? = some c → c = ')'

theorem patterns_complete (side : Side) (N : Nat) :
    (∀ src p, src.length ≤ N → InnerSrc side src p → ∀ n r, 5 * src.length + 1 ≤ n → Ends p r →
      pInner side n (src ++ r) = .ok (p, r)) ∧
    (∀ src p, src.length ≤ N → QuantifiedSrc side src p → ∀ n r, 5 * src.length + 2 ≤ n → Ends p r →
      (p.isQuantified = false → NoQuantifier r) → pQuantified side n (src ++ r) = .ok (p, r)) ∧
    (∀ src ps, src.length ≤ N → SequenceSrc side src ps → ∀ n r, 5 * src.length + 3 ≤ n → SequenceEnd r →
      pSequence side n (src ++ r) = .ok (ps, r)) ∧
    (∀ src left ps, src.length ≤ N → AlternativesSrc side left src ps → ∀ n r, 5 * src.length + 1 ≤ n → EitherEnd r →
      pEitherMore side n left (src ++ r) = .ok (ps, r)) ∧
    (∀ src ps, src.length ≤ N → EitherSrc side src ps → ∀ n r, 5 * src.length + 4 ≤ n → EitherEnd r →
      pEither side n (src ++ r) = .ok (ps, r)) ∧
    (∀ src ps, src.length ≤ N → EitherSrc side src ps → ps ≠ []) := by
  induction N using Nat.strongRecOn with
  | ind N ih =>
    have hinner : ∀ src p, src.length ≤ N → InnerSrc side src p → ∀ n r, 5 * src.length + 1 ≤ n → Ends p r →
        pInner side n (src ++ r) = .ok (p, r) := by
      intro src p hN h n r hn hends
      obtain ⟨n, rfl⟩ : ∃ m, n = m + 1 := ⟨n - 1, by omega⟩
      cases h with
      | any => rfl
      | boundary c h => rcases h with rfl | rfl <;> rfl
      | attr c a h =>
        rw [List.cons_append, pInner, if_neg (by decide), if_pos rfl, List.cons_append, List.nil_append, pAttributes.eq_def]
        split
        · rename_i heq
          cases heq
          exact absurd h (by rw [show matchAttr '[' = none by decide]; simp)
        · rename_i heq; cases heq; rw [h]; rfl
        · rename_i heq; cases heq
      | attrs cs as hne h =>
        rw [show ('%' :: '[' :: cs ++ [']']) ++ r = '%' :: '[' :: (cs ++ ']' :: r) by simp, pInner, if_neg (by decide),
          if_pos rfl, pAttributes, pAttrsFrom_complete cs as [] r h]
        simp only
        rw [if_neg]
        · rfl
        · intro e
          have := (distinct_eq_nil as).mp e
          subst this
          simp at h
          exact hne h
      | set body cs hne h =>
        rw [show ('[' :: body ++ [']']) ++ r = '[' :: (body ++ ']' :: r) by simp, pInner, if_neg (by decide),
          if_neg (by decide), if_neg (by decide), if_neg (by decide), if_neg (by decide), if_pos rfl,
          pSetFrom_complete h]
        simp only
        rw [if_neg (show ¬ List.foldl addNew [] cs = [] from fun e => hne ((distinct_eq_nil cs).mp e))]
        rfl
      | characters s hne h =>
        have hsplit := takeWhile_split (!isSpecial ·) src r (by intro c hc; simp [h c hc])
          (by intro c hc; simp [hends.openEnd rfl c hc])
        cases src with
        | nil => exact absurd rfl hne
        | cons c es =>
          have hc := h c (by simp)
          rw [List.cons_append] at hsplit ⊢
          have hn : ∀ d, isSpecial d = true → c ≠ d := by rintro d hd rfl; rw [hc] at hd; cases hd
          rw [pInner, if_neg (hn _ (by decide)), if_neg (hn _ (by decide)), if_neg (hn _ (by decide)),
            if_neg (hn _ (by decide)), if_neg (hn _ (by decide)), if_neg (hn _ (by decide)), if_neg (hn _ (by decide)),
            if_neg (by simp [hc]), hsplit.1, hsplit.2]
      | group src' ps h =>
        simp only [List.length_append, List.length_cons, List.length_nil] at hn hN
        rw [show ('(' :: src' ++ [')']) ++ r = '(' :: (src' ++ ')' :: r) by simp, pInner, if_neg (by decide),
          if_neg (by decide), if_neg (by decide), if_neg (by decide), if_neg (by decide), if_neg (by decide), if_pos rfl,
          (ih (N - 1) (by omega)).2.2.2.2.1 src' ps (by omega) h n (')' :: r) (by omega)
            (by intro c hc; simp at hc; exact hc.symm)]
        have := (ih (N - 1) (by omega)).2.2.2.2.2 src' ps (by omega) h
        simp only
        rw [if_neg (by simpa using this)]
      | negate src' p' h hneg =>
        simp only [List.length_cons] at hn hN
        rw [List.cons_append, pInner, if_neg (by decide), if_neg (by decide), if_neg (by decide), if_neg (by decide),
          if_pos rfl, (ih (N - 1) (by omega)).2.1 src' p' (by omega) h n r (by omega)]
        · split
          · rename_i heq; cases heq
          · rename_i heq; cases heq; cases hneg
          · rename_i heq; cases heq; rfl
        · refine ⟨hends.openEnd, ?_⟩
          intro hp
          cases p' <;> first | cases hp | cases hneg
        · intro hq; exact hends.passes (by simp [Pattern.passesQuantifier, hq])
    have hquant : ∀ src p, src.length ≤ N → QuantifiedSrc side src p → ∀ n r, 5 * src.length + 2 ≤ n → Ends p r →
        (p.isQuantified = false → NoQuantifier r) → pQuantified side n (src ++ r) = .ok (p, r) := by
      intro src p hN h n r hn hends hno
      obtain ⟨n, rfl⟩ : ∃ m, n = m + 1 := ⟨n - 1, by omega⟩
      cases h with
      | plain _ _ h =>
        rw [pQuantified, hinner src p hN h n r (by omega) hends]
        simp only
        rw [pQuantifier_none (hno h.not_quantified)]
      | quantified src' p' _ c h hc hp =>
        have hl : src'.length + 1 ≤ N ∧ 5 * src'.length + 1 ≤ n := by
          simp only [List.length_append, List.length_cons, List.length_nil] at hn hN; omega
        rw [show (src' ++ [c]) ++ r = src' ++ c :: r by simp, pQuantified,
          hinner src' p' (by omega) h n (c :: r) hl.2 ⟨?_, by simp [hp]⟩]
        · simp only
          rw [pQuantifier_char hc]
        · intro _ d hd
          simp at hd; subst hd
          cases hc <;> decide
    have hseq : ∀ src ps, src.length ≤ N → SequenceSrc side src ps → ∀ n r, 5 * src.length + 3 ≤ n → SequenceEnd r →
        pSequence side n (src ++ r) = .ok (ps, r) := by
      intro src ps hN h n r hn hend
      obtain ⟨n, rfl⟩ : ∃ m, n = m + 1 := ⟨n - 1, by omega⟩
      cases h with
      | nil =>
        cases r with
        | nil => rfl
        | cons c r => rw [List.nil_append, pSequence, if_pos (hend c rfl)]
      | cons src' rest p ps h more hopen =>
        have hN' : src'.length + rest.length ≤ N := by rw [List.length_append] at hN; exact hN
        have hn' : 5 * src'.length + 5 * rest.length + 2 ≤ n := by rw [List.length_append] at hn; omega
        obtain ⟨c, es, he, hc⟩ := h.head
        have hpos : 0 < src'.length := by rw [he]; simp
        have hendSpecial : ∀ d, r.head? = some d → isSpecial d = true ∧ d ≠ '?' ∧ d ≠ '*' ∧ d ≠ '+' := by
          intro d hd
          rcases hend d hd with rfl | rfl <;> decide
        have hno : NoQuantifier (rest ++ r) := by
          intro d hd
          rcases head_append hd with hd | ⟨_, hd⟩
          · have := startsPattern_facts (more.head d hd)
            exact ⟨this.1, this.2.1, this.2.2.1⟩
          · exact (hendSpecial d hd).2
        have h1 := hquant src' p (by omega) h n (rest ++ r) (by omega) ⟨?_, fun _ => hno⟩ (fun _ => hno)
        · have h2 := (ih (N - 1) (by omega)).2.2.1 rest ps (by omega) more n r (by omega) hend
          rw [List.append_assoc]
          rw [he, List.cons_append] at h1 ⊢
          have := startsPattern_facts hc
          rw [pSequence, if_neg (by simp [this]), h1]
          simp only [h2]
        · intro ho d hd
          rcases head_append hd with hd | ⟨_, hd⟩
          · exact hopen ho d hd
          · exact (hendSpecial d hd).1
    have halts : ∀ src left ps, src.length ≤ N → AlternativesSrc side left src ps → ∀ n r, 5 * src.length + 1 ≤ n →
        EitherEnd r → pEitherMore side n left (src ++ r) = .ok (ps, r) := by
      intro src left ps hN h n r hn hend
      obtain ⟨n, rfl⟩ : ∃ m, n = m + 1 := ⟨n - 1, by omega⟩
      cases h with
      | done =>
        cases r with
        | nil => rfl
        | cons c r => rw [List.nil_append, pEitherMore, if_neg (by rw [hend c rfl]; decide)]
      | alternative _ right _ src' rest h hne more =>
        simp only [List.length_append, List.length_cons] at hn hN
        rw [show ('|' :: src' ++ rest) ++ r = '|' :: (src' ++ (rest ++ r)) by simp, pEitherMore, if_pos rfl,
          (ih (N - 1) (by omega)).2.2.1 src' right (by omega) h n (rest ++ r) (by omega)]
        · simp only
          rw [if_neg (by simpa using hne)]
          exact (ih (N - 1) (by omega)).2.2.2.1 rest _ ps (by omega) more n r (by omega) hend
        · intro d hd
          rcases head_append hd with hd | ⟨_, hd⟩
          · exact .inl (more.head d hd)
          · exact .inr (hend d hd)
    refine ⟨hinner, hquant, hseq, halts, ?_, ?_⟩
    · intro src ps hN h n r hn hend
      obtain ⟨n, rfl⟩ : ∃ m, n = m + 1 := ⟨n - 1, by omega⟩
      cases h with
      | intro src' rest first _ h hne more =>
        simp only [List.length_append] at hn hN
        rw [List.append_assoc, pEither, if_neg]
        · rw [hseq src' first (by omega) h n (rest ++ r) (by omega)]
          · exact halts rest first ps (by omega) more n r (by omega) hend
          · intro d hd
            rcases head_append hd with hd | ⟨_, hd⟩
            · exact .inl (more.head d hd)
            · exact .inr (hend d hd)
        · intro hbar
          cases h with
          | nil => exact hne rfl
          | cons src rest p ps h _ _ =>
            obtain ⟨c, es, rfl, hc⟩ := h.head
            simp at hbar; subst hbar; exact absurd hc (by decide)
    · intro src ps hN h
      cases h with
      | intro src' rest first _ h hne more =>
        have key : ∀ (m : Nat) (left : List Pattern) (src : Text), src.length ≤ m → AlternativesSrc side left src ps → left ≠ [] →
            ps ≠ [] := by
          intro m
          induction m with
          | zero =>
            intro left src hl ha hne
            cases ha with
            | done => exact hne
            | alternative => simp at hl
          | succ m ihm =>
            intro left src hl ha hne
            cases ha with
            | done => exact hne
            | alternative _ right _ src' rest h hne' more =>
              simp only [List.length_append, List.length_cons] at hl
              exact ihm _ _ (by omega) more (by simp)
        exact key _ first rest (Nat.le_refl _) more hne

/-- C55: the operand of `match` is accepted exactly if it is empty, starts with a dash, or is a pattern, and it is read as
that. -/
theorem C55_match_grammar (side : Side) (s : Text) (ps : List Pattern) : parseMatch side s = .ok ps ↔ MatchSrc side s ps := by
  constructor
  · intro h
    rw [parseMatch.eq_def] at h
    split at h
    · cases h; exact .dash _
    · cases h; exact .nothing
    · rename_i hd hnil
      split at h
      · cases h
      · rename_i ps' heq
        cases h
        by_cases hne : ps = []
        · exfalso
          subst hne
          -- an accepted nonempty text has a first pattern
          rw [pEither] at heq
          split at heq
          · cases heq
          · split at heq
            · cases heq
            · rename_i left s' hseq
              obtain ⟨src, hs, hsrc, _⟩ := (patterns_sound side _).2.2.1 _ _ _ hseq
              obtain ⟨src', hs', halt⟩ := (patterns_sound side _).2.2.2.2 _ _ _ _ heq
              have key : ∀ (m : Nat) (left : List Pattern) (src : Text), src.length ≤ m →
                  AlternativesSrc side left src [] → left = [] ∧ src = [] := by
                intro m
                induction m with
                | zero =>
                  intro left src hl ha
                  cases ha with
                  | done => exact ⟨rfl, rfl⟩
                  | alternative => simp at hl
                | succ m ihm =>
                  intro left src hl ha
                  cases ha with
                  | done => exact ⟨rfl, rfl⟩
                  | alternative _ right _ src' rest h hne' more =>
                    simp only [List.length_append, List.length_cons] at hl
                    have := (ihm _ _ (by omega) more).1
                    cases this
              have hk := key _ _ _ (Nat.le_refl _) halt
              rw [hk.1] at hsrc
              cases hsrc
              rw [hk.2] at hs'
              simp at hs'
              subst hs'
              simp at hs
              exact hnil hs
        · obtain ⟨src, hs, hsrc⟩ := (patterns_sound side _).2.2.2.1 _ _ _ heq hne
          rw [List.append_nil] at hs
          subst hs
          refine .pattern s ps hsrc ?_
          intro hh
          cases s with
          | nil => cases hh
          | cons c s => simp at hh; subst hh; exact hd _ rfl
      · cases h
  · intro h
    cases h with
    | nothing => rfl
    | dash rest => rfl
    | pattern _ _ h hd =>
      have := (patterns_complete side s.length).2.2.2.2.1 s ps (Nat.le_refl _) h (5 * s.length + 5) [] (by omega)
        (by intro c hc; cases hc)
      rw [List.append_nil] at this
      have hnil : s ≠ [] := by
        cases h with
        | intro src rest first _ h hne more =>
          cases h with
          | nil => exact absurd rfl hne
          | cons src rest p ps h _ _ =>
            obtain ⟨c, es, rfl, _⟩ := h.head
            simp
      rw [parseMatch.eq_def]
      split
      · exact absurd rfl hd
      · exact absurd rfl hnil
      · rw [this]

/-! ## No run out of fuel -/

theorem patterns_no_fuel (side : Side) (n : Nat) :
    (∀ s, 5 * s.length + 1 ≤ n → pInner side n s ≠ .error .fuel) ∧
    (∀ s, 5 * s.length + 2 ≤ n → pQuantified side n s ≠ .error .fuel) ∧
    (∀ s, 5 * s.length + 3 ≤ n → pSequence side n s ≠ .error .fuel) ∧
    (∀ s, 5 * s.length + 4 ≤ n → pEither side n s ≠ .error .fuel) ∧
    (∀ left s, 5 * s.length + 1 ≤ n → pEitherMore side n left s ≠ .error .fuel) := by
  induction n with
  | zero =>
    refine ⟨?_, ?_, ?_, ?_, ?_⟩ <;> intros <;> omega
  | succ n ih =>
    obtain ⟨ih1, ih2, ih3, ih4, ih5⟩ := ih
    refine ⟨?_, ?_, ?_, ?_, ?_⟩
    · intro s hs h
      cases s with
      | nil => rw [pInner] at h; cases h
      | cons c s =>
        simp only [List.length_cons] at hs
        rw [pInner] at h
        repeat' (split at h)
        all_goals first | exact orReject_not_fuel _ h | cases h | skip
        · rename_i heq; exact ih2 s (by omega) heq
        · rename_i heq; exact ih4 s (by omega) heq
    · intro s hs h
      rw [pQuantified] at h
      split at h
      · rename_i heq; cases h; exact ih1 s (by omega) heq
      · cases h
    · intro s hs h
      cases s with
      | nil => rw [pSequence] at h; cases h
      | cons c s =>
        rw [pSequence] at h
        split at h
        · cases h
        · split at h
          · rename_i heq; cases h; exact ih2 _ (by omega) heq
          · rename_i p s' heq
            obtain ⟨src, he, hsrc, _⟩ := (patterns_sound side n).2.1 _ _ _ heq
            obtain ⟨d, es, rfl, _⟩ := hsrc.head
            have hl := congrArg List.length he
            simp only [List.length_cons, List.length_append] at hl hs
            split at h
            · rename_i heq'; cases h; exact ih3 s' (by omega) heq'
            · cases h
    · intro s hs h
      rw [pEither] at h
      split at h
      · cases h
      · split at h
        · rename_i heq; cases h; exact ih3 s (by omega) heq
        · rename_i left s' heq
          obtain ⟨src, he, hsrc, _⟩ := (patterns_sound side n).2.2.1 _ _ _ heq
          have hl := congrArg List.length he
          simp only [List.length_append] at hl
          exact ih5 left s' (by omega) h
    · intro left s hs h
      cases s with
      | nil => rw [pEitherMore] at h; cases h
      | cons c s =>
        simp only [List.length_cons] at hs
        rw [pEitherMore] at h
        split at h
        · split at h
          · rename_i heq; cases h; exact ih3 s (by omega) heq
          · rename_i right s' heq
            split at h
            · cases h
            · obtain ⟨src, he, hsrc, _⟩ := (patterns_sound side n).2.2.1 _ _ _ heq
              have hl := congrArg List.length he
              simp only [List.length_append] at hl
              exact ih5 _ s' (by omega) h
        · cases h

/-- C55: the operand parsers terminate on every operand: each gives a result or rejects. -/
theorem C55_operand_parsers_total (s : Text) :
    (parseTest s = .error .reject ∨ ∃ ts, parseTest s = .ok ts) ∧
    (parseAction s = .error .reject ∨ ∃ as, parseAction s = .ok as) ∧
    ∀ side, parseMatch side s = .error .reject ∨ ∃ ps, parseMatch side s = .ok ps := by
  have hcases : ∀ {α : Type} (e : Except PErr α), e ≠ .error .fuel → e = .error .reject ∨ ∃ a, e = .ok a := by
    intro α e h
    match e with
    | .error .reject => exact .inl rfl
    | .error .fuel => exact absurd rfl h
    | .ok a => exact .inr ⟨a, rfl⟩
  refine ⟨hcases _ (parseTest_no_fuel s), hcases _ (parseAction_no_fuel s), fun side => hcases _ ?_⟩
  intro h
  rw [parseMatch.eq_def] at h
  split at h
  · cases h
  · cases h
  · split at h
    · rename_i heq; cases h; exact (patterns_no_fuel side _).2.2.2.1 s (by omega) heq
    · cases h
    · cases h

/-- C55: no operand can be read in two ways. -/
theorem C55_grammar_unambiguous (s : Text) :
    (∀ ts ts', TestsSrc s ts → TestsSrc s ts' → ts ≠ [] → ts' ≠ [] → ts = ts') ∧
    (∀ as as', ActionsSrc s as → ActionsSrc s as' → as ≠ [] → as' ≠ [] → as = as') ∧
    (∀ side ps ps', MatchSrc side s ps → MatchSrc side s ps' → ps = ps') := by
  refine ⟨?_, ?_, ?_⟩
  · intro ts ts' h h' hne hne'
    have h1 := (C55_test_grammar s ts).mpr ⟨h, hne⟩
    have h2 := (C55_test_grammar s ts').mpr ⟨h', hne'⟩
    rw [h1] at h2; cases h2; rfl
  · intro ts ts' h h' hne hne'
    have h1 := (C55_action_grammar s ts).mpr ⟨h, hne⟩
    have h2 := (C55_action_grammar s ts').mpr ⟨h', hne'⟩
    rw [h1] at h2; cases h2; rfl
  · intro side ps ps' h h'
    have h1 := (C55_match_grammar side s ps).mpr h
    have h2 := (C55_match_grammar side s ps').mpr h'
    rw [h1] at h2; cases h2; rfl

/-- A pattern with every kind of piece. -/
example : parseMatch .pre "ab?!(c|[d\\]]+)*%[_^].^%a".toList = .ok
    [.optional (.characters ['a', 'b']), .negate (.zeroOrMore (.group [.either [.characters ['c']] [.oneOrMore (.set ['d', ']'])]])),
      .attributesOrBoundary [.cls .space] .pre, .any, .boundary .pre, .attributes [.cls .letter]] := by decide +kernel

/-- C55 does not hold of operands with a leading dash: the rest of the operand is ignored. -/
theorem C55_dash_ignores_rest_wrong (side : Side) (s : Text) : parseMatch side ('-' :: s) = .ok [.empty] := rfl

/-! ## The letters of the grammars -/

/-- The attributes of multipass tests. -/
def testLetters : List (Char × Attr) :=
  [('a', .any), ('d', .cls .digit), ('D', .cls .litdigit), ('l', .cls .letter), ('m', .cls .math), ('p', .cls .punctuation),
   ('S', .cls .sign), ('s', .cls .space), ('U', .cls .uppercase), ('u', .cls .lowercase), ('w', .byOrder 1),
   ('x', .byOrder 2), ('y', .byOrder 3), ('z', .byOrder 4)]

/-- The attributes of match patterns. -/
def matchLetters : List (Char × Attr) :=
  [('_', .cls .space), ('#', .cls .digit), ('a', .cls .letter), ('u', .cls .uppercase), ('l', .cls .lowercase),
   ('.', .cls .punctuation), ('$', .cls .sign), ('~', .cls .seqdelimiter), ('<', .cls .seqbeforechars),
   ('>', .cls .seqafterchars), ('^', .boundary)] ++ "01234567".toList.map fun c => (c, .cls (.user [c]))

theorem ascii_all (p : Char → Bool) (h : ∀ n, n < 128 → p (Char.ofNat n) = true) (c : Char) (hc : c.toNat < 128) : p c = true := by
  have := h c.toNat hc
  rwa [Char.ofNat_toNat] at this

/-- **C55**: the words and letters used by the grammars of `Spec/Operand.lean`. -/
theorem C55_letters (c : Char) :
    (∀ a, testAttr c = some a ↔ (c, a) ∈ testLetters) ∧
    (∀ a, matchAttr c = some a ↔ (c, a) ∈ matchLetters) ∧
    (isSpecial c = true ↔ c ∈ ".*%^$![]()\\?+|".toList) ∧
    (isClassDigit c = true ↔ c ∈ "1234567".toList) ∧
    (isAsciiAlpha c = true ↔ c ∈ "abcdefghijklmnopqrstuvwxyzABCDEFGHIJKLMNOPQRSTUVWXYZ".toList) := by
  refine ⟨?_, ?_, ?_, ?_, ?_⟩
  · intro a
    constructor
    · intro h
      unfold testAttr at h
      split at h <;> first | (rw [Option.some.injEq] at h; subst h; decide) | cases h
    · intro h
      simp only [testLetters, List.mem_cons, List.not_mem_nil, or_false, Prod.mk.injEq] at h
      rcases h with h | h | h | h | h | h | h | h | h | h | h | h | h | h <;> obtain ⟨rfl, rfl⟩ := h <;> rfl
  · intro a
    constructor
    · intro h
      unfold matchAttr at h
      split at h
      case h_12 =>
        split at h
        · rename_i hd
          rw [Option.some.injEq] at h; subst h
          rw [matchLetters, List.mem_append]
          right
          rw [List.mem_map]
          refine ⟨c, ?_, rfl⟩
          have := ascii_all (fun c => !('0'.toNat ≤ c.toNat && c.toNat ≤ '7'.toNat) || "01234567".toList.contains c)
            (by decide +kernel) c (by have := hd.2; simp only [Char.reduceToNat] at this; omega)
          have h1 := hd.1; have h2 := hd.2
          simp only [Char.reduceToNat] at h1 h2
          simp at this ⊢
          rcases this with h | h
          · omega
          · exact h
        · cases h
      all_goals (rw [Option.some.injEq] at h; subst h; decide)
    · intro h
      simp only [matchLetters, String.toList, List.mem_append, List.mem_map] at h
      rcases h with h | ⟨d, hd, h⟩
      · simp only [List.mem_cons, List.not_mem_nil, or_false, Prod.mk.injEq] at h
        rcases h with h | h | h | h | h | h | h | h | h | h | h <;> obtain ⟨rfl, rfl⟩ := h <;> rfl
      · rw [Prod.mk.injEq] at h
        obtain ⟨rfl, rfl⟩ := h
        have hd : d ∈ ['0', '1', '2', '3', '4', '5', '6', '7'] := hd
        simp only [List.mem_cons, List.not_mem_nil, or_false] at hd
        rcases hd with h | h | h | h | h | h | h | h <;> subst h <;> rfl
  · have hl : ".*%^$![]()\\?+|".toList = ['.', '*', '%', '^', '$', '!', '[', ']', '(', ')', '\\', '?', '+', '|'] := rfl
    rw [isSpecial, List.contains_iff_mem, hl]
    simp only [List.mem_cons, List.not_mem_nil, or_false]
    grind
  · constructor
    · intro h
      have hlt : c.toNat < 128 := by
        simp only [isClassDigit, Bool.and_eq_true, decide_eq_true_eq, Char.reduceToNat] at h; omega
      have := ascii_all (fun c => !isClassDigit c || "1234567".toList.contains c) (by decide +kernel) c hlt
      simpa [h] using this
    · intro h
      have := List.all_eq_true.mp (show "1234567".toList.all isClassDigit = true by decide +kernel) c h
      exact this
  · constructor
    · intro h
      have hlt : c.toNat < 128 := by
        simp only [isAsciiAlpha, Bool.or_eq_true, Bool.and_eq_true, decide_eq_true_eq, Char.reduceToNat] at h; omega
      have := ascii_all (fun c => !isAsciiAlpha c || "abcdefghijklmnopqrstuvwxyzABCDEFGHIJKLMNOPQRSTUVWXYZ".toList.contains c)
        (by decide +kernel) c hlt
      simpa [h] using this
    · intro h
      exact List.all_eq_true.mp (show "abcdefghijklmnopqrstuvwxyzABCDEFGHIJKLMNOPQRSTUVWXYZ".toList.all isAsciiAlpha = true by
        decide +kernel) c h

/-- **C55**: attributes in brackets: a boundary among them stands for "or at the boundary"; each attribute counts once. -/
theorem C55_attribute_sets (side : Side) (as : List Attr) :
    (Attr.boundary ∉ as → attrPattern side as = .attributes as) ∧
    (as ≠ [] → (∀ a ∈ as, a = .boundary) → attrPattern side as = .boundary side) ∧
    (Attr.boundary ∈ as → ∀ a ∈ as, a ≠ .boundary →
      attrPattern side as = .attributesOrBoundary (as.filter (· != .boundary)) side) ∧
    (distinct as).Nodup ∧ ∀ a, a ∈ distinct as ↔ a ∈ as := by
  refine ⟨?_, ?_, ?_, nodup_distinct as, mem_distinct as⟩
  · intro h; rw [attrPattern, if_neg h]
  · intro hne h
    have hm : Attr.boundary ∈ as := by
      cases as with
      | nil => exact absurd rfl hne
      | cons a as => rw [h a (by simp)]; simp
    have hf : as.filter (· != .boundary) = [] := by
      rw [List.filter_eq_nil_iff]
      intro a ha; simp [h a ha]
    rw [attrPattern, if_pos hm, if_pos hf]
  · intro hm a ha hab
    have hf : as.filter (· != .boundary) ≠ [] := by
      intro hf
      rw [List.filter_eq_nil_iff] at hf
      have := hf a ha
      simp [hab] at this
    rw [attrPattern, if_pos hm, if_neg hf]

/-- An attribute letter of each kind. -/
example : testAttr 'U' = some (.cls .uppercase) ∧ matchAttr 'u' = some (.cls .uppercase) ∧ testAttr 'q' = none ∧
    attrPattern .pre [.cls .letter, .boundary] = .attributesOrBoundary [.cls .letter] .pre := by decide +kernel

end Louis
