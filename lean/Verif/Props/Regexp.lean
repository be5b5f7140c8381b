import Verif.Lemmas.Find

/-!
# Properties of the pattern matcher (C01, C02, C04, C05, C37)

Specification: `Verif.Spec.Regexp` (`Matches`).  Model: `Verif.Model.Regexp` (`compile`, `findAnchored`).
-/

namespace Louis.Regexp

/-- Examples use the identity as lower-casing. -/
private def idLower : Char → List Char := fun c => [c]

theorem rangeFree_irrelevant {rng rng' lower env atStart} : ∀ (r : Regexp) (_ : RangeFree r) (s s' : St),
    MatchesWith rng lower env atStart r s s' → MatchesWith rng' lower env atStart r s s' := by
  have iter : ∀ {R R' : St → St → Prop}, (∀ s s', R s s' → R' s s') → ∀ n s s', Iter R n s s' → Iter R' n s s' := by
    intro R R' h n
    induction n with
    | zero => intro s s' hi; exact hi
    | succ n ih => rintro s s' ⟨t, h1, h2⟩; exact ⟨t, h _ _ h1, ih _ _ h2⟩
  intro r
  induction r with
  | concat l r ihl ihr => rintro ⟨hl, hr⟩ s s' ⟨t, h1, h2⟩; exact ⟨t, ihl hl _ _ h1, ihr hr _ _ h2⟩
  | either l r ihl ihr =>
    rintro ⟨hl, hr⟩ s s' h; exact h.elim (fun h => Or.inl (ihl hl _ _ h)) (fun h => Or.inr (ihr hr _ _ h))
  | optional r ih => intro hr s s' h; exact h.elim Or.inl (fun h => Or.inr (ih hr _ _ h))
  | zeroOrMore r ih => rintro hr s s' ⟨n, h⟩; exact ⟨n, iter (ih hr) n _ _ h⟩
  | oneOrMore r ih => rintro hr s s' ⟨n, h1, h⟩; exact ⟨n, h1, iter (ih hr) n _ _ h⟩
  | repeatExactly n r ih => rintro hr s s' h; exact iter (ih hr) n _ _ h
  | repeatAtLeast n r ih => rintro hr s s' ⟨k, h1, h⟩; exact ⟨k, h1, iter (ih hr) k _ _ h⟩
  | repeatAtLeastAtMost n m r ih => intro hr; exact hr.elim
  | capture r ih => rintro hr s s' ⟨t, h, e⟩; exact ⟨t, ih hr _ _ h, e⟩
  | group r ih => intro hr s s' h; exact ih hr s s' h
  | _ => intro _ s s' h; exact h

/-- **C05** Matching terminates without a panic for every pattern, text, environment and start flag: one recursion
level per instruction is enough for the epsilon closure (fuel `instructions + 1`), and every index is in range. -/
theorem C05_matching_terminates {τ : Type} (r : Regexp) (payload : τ) (lower : Char → List Char) (input : List Char)
    (env : Nat → Option Nat) (atStart : Bool) :
    ∃ res, findAnchored (compile r payload) lower input env atStart = .ok res := by
  obtain ⟨res, h, _⟩ := findAnchored_spec r payload lower input env atStart
  exact ⟨res, h⟩

-- (a*)* on "ab" and ((|)+)* on "x": nested loops over empty matches
example : findAnchored (compile (.zeroOrMore (.zeroOrMore (.literal 'a'))) ()) idLower ['a', 'b'] (fun _ => none) true
    = .ok (some ⟨[], 1, 0, ()⟩) := by rfl
example : findAnchored (compile (.zeroOrMore (.oneOrMore (.either .empty .empty))) ()) idLower ['x'] (fun _ => none) true
    = .ok (some ⟨[], 0, 0, ()⟩) := by rfl

/-- **C01** A compiled pattern (without `{min,max}`, see C02) matches at the start of a text iff some prefix of the
text is in the pattern's language. -/
theorem C01_match_iff_language {τ : Type} (r : Regexp) (hr : RangeFree r) (payload : τ) (lower : Char → List Char)
    (input : List Char) (env : Nat → Option Nat) (atStart : Bool) :
    (∃ f, findAnchored (compile r payload) lower input env atStart = .ok (some f)) ↔
      ∃ s', Matches lower env atStart r (St.init input) s' := by
  obtain ⟨res, h, hc, hs⟩ := findAnchored_spec r payload lower input env atStart
  rw [h]
  constructor
  · rintro ⟨f, hf⟩
    cases hf
    obtain ⟨s', _, _, _, hM, _⟩ := hs f rfl
    exact ⟨s', rangeFree_irrelevant r hr _ _ hM⟩
  · rintro ⟨s', hM⟩
    have := hc ⟨s', rangeFree_irrelevant r hr _ _ hM⟩
    obtain ⟨f, rfl⟩ := Option.isSome_iff_exists.1 this
    exact ⟨f, rfl⟩

/-- **C01** (what is reported) The number of characters reported as consumed is the length of a prefix in the
pattern's language. -/
theorem C01_length_in_language {τ : Type} (r : Regexp) (hr : RangeFree r) (payload : τ) (lower : Char → List Char)
    (input : List Char) (env : Nat → Option Nat) (atStart : Bool) (f : Found τ)
    (h : findAnchored (compile r payload) lower input env atStart = .ok (some f)) :
    ∃ s', Matches lower env atStart r (St.init input) s' ∧ input = input.take f.length ++ s'.rest ∧
      f.length ≤ input.length ∧ f.payload = payload := by
  obtain ⟨res, h', _, hs⟩ := findAnchored_spec r payload lower input env atStart
  rw [h] at h'; cases h'
  obtain ⟨s', before, after, consumed, hM, hin, hl, hc, ho, hcap, hp⟩ := hs f rfl
  refine ⟨s', rangeFree_irrelevant r hr _ _ hM, ?_, by rw [hl, hin]; simp, hp⟩
  rw [hl]; conv => rhs; arg 1; rw [hin, List.take_left]
  exact hin

example : RangeFree (.concat (.oneOrMore (.cls ['a', 'b'])) (.concat (.optional (.literal 'c')) .endAnchor)) := by
  simp [RangeFree]
example : findAnchored (compile (.concat (.oneOrMore (.cls ['a', 'b'])) (.concat (.optional (.literal 'c')) .endAnchor)) ())
    idLower ['a', 'b', 'c'] (fun _ => none) false = .ok (some ⟨[], 3, 0, ()⟩) := by rfl
example : findAnchored (compile (.concat (.oneOrMore (.cls ['a', 'b'])) (.concat (.optional (.literal 'c')) .endAnchor)) ())
    idLower ['a', 'b', 'd'] (fun _ => none) false = .ok none := by rfl

/-- **C04** Whenever any pattern matches, the captured text is a slice of the consumed prefix at the reported
character offset (so the byte slicing of the code is on character boundaries and cannot panic). -/
theorem C04_capture_is_slice {τ : Type} (r : Regexp) (payload : τ) (lower : Char → List Char)
    (input : List Char) (env : Nat → Option Nat) (atStart : Bool) (f : Found τ)
    (h : findAnchored (compile r payload) lower input env atStart = .ok (some f)) :
    ∃ before after rest, input = before ++ f.capture ++ after ++ rest ∧ f.offset = before.length ∧
      f.length = (before ++ f.capture ++ after).length := by
  obtain ⟨res, h', _, hs⟩ := findAnchored_spec r payload lower input env atStart
  rw [h] at h'; cases h'
  obtain ⟨s', before, after, consumed, hM, hin, hl, hc, ho, hcap, hp⟩ := hs f rfl
  exact ⟨before, after, s'.rest, by rw [← hc, ← hin], ho, by rw [hl, hc]⟩

/-- A pattern without a capture group. -/
def CaptureFree : Regexp → Prop
  | .capture _ => False
  | .concat l r | .either l r => CaptureFree l ∧ CaptureFree r
  | .optional r | .zeroOrMore r | .oneOrMore r | .repeatExactly _ r | .repeatAtLeast _ r
  | .repeatAtLeastAtMost _ _ r | .group r => CaptureFree r
  | _ => True

theorem captureFree_cap {rng lower env atStart} : ∀ (r : Regexp) (_ : CaptureFree r) (s s' : St),
    MatchesWith rng lower env atStart r s s' → s'.cap = s.cap := by
  have eats : ∀ {P s s'}, Eats P s s' → s'.cap = s.cap := by rintro P s s' ⟨c, t, _, _, rfl⟩; rfl
  have eatsAll : ∀ {P es s s'}, EatsAll P es s s' → s'.cap = s.cap := by
    intro P es
    induction es with
    | nil => intro s s' h; simp [EatsAll] at h; rw [h]
    | cons e es ih => rintro s s' ⟨t, h1, h2⟩; rw [ih h2, eats h1]
  have iter : ∀ {R : St → St → Prop}, (∀ s s', R s s' → s'.cap = s.cap) → ∀ n s s', Iter R n s s' → s'.cap = s.cap := by
    intro R h n
    induction n with
    | zero => intro s s' hi; simp [Iter] at hi; rw [hi]
    | succ n ih => rintro s s' ⟨t, h1, h2⟩; rw [ih _ _ h2, h _ _ h1]
  intro r
  induction r with
  | concat l r ihl ihr => rintro ⟨hl, hr⟩ s s' ⟨t, h1, h2⟩; rw [ihr hr _ _ h2, ihl hl _ _ h1]
  | either l r ihl ihr => rintro ⟨hl, hr⟩ s s' h; exact h.elim (ihl hl _ _) (ihr hr _ _)
  | optional r ih => intro hr s s' h; exact h.elim (fun h => by rw [h]) (ih hr _ _)
  | zeroOrMore r ih => rintro hr s s' ⟨n, h⟩; exact iter (ih hr) n _ _ h
  | oneOrMore r ih => rintro hr s s' ⟨n, h1, h⟩; exact iter (ih hr) n _ _ h
  | repeatExactly n r ih => rintro hr s s' h; exact iter (ih hr) n _ _ h
  | repeatAtLeast n r ih => rintro hr s s' ⟨k, h1, h⟩; exact iter (ih hr) k _ _ h
  | repeatAtLeastAtMost n m r ih => rintro hr s s' ⟨k, h1, h⟩; exact iter (ih hr) k _ _ h
  | capture r ih => intro hr; exact hr.elim
  | group r ih => intro hr s s' h; exact ih hr s s' h
  | literal => intro _ s s' h; exact eats h
  | any => intro _ s s' h; exact eats h
  | cls => intro _ s s' h; exact eats h
  | notCls => intro _ s s' h; exact eats h
  | string => intro _ s s' h; exact eatsAll h
  | notString => intro _ s s' h; exact eatsAll h
  | ciString => intro _ s s' h; exact eatsAll h
  | empty => intro _ s s' h; simp [MatchesWith] at h; rw [h]
  | never => intro _ s s' h; exact h.elim
  | _ => rintro _ s s' ⟨_, rfl⟩; rfl

theorem utf8Len_nil_of_zero {l : List Char} (h : utf8Len l = 0) : l = [] := utf8Len_eq_zero.1 h

/-- **C04** A pattern without a capture reports the empty capture at offset 0. -/
theorem C04_no_capture {τ : Type} (r : Regexp) (hr : CaptureFree r) (payload : τ) (lower : Char → List Char)
    (input : List Char) (env : Nat → Option Nat) (atStart : Bool) (f : Found τ)
    (h : findAnchored (compile r payload) lower input env atStart = .ok (some f)) :
    f.capture = [] ∧ f.offset = 0 := by
  obtain ⟨res, h', _, hs⟩ := findAnchored_spec r payload lower input env atStart
  rw [h] at h'; cases h'
  obtain ⟨s', before, after, consumed, hM, hin, hl, hc, ho, hcap, hp⟩ := hs f rfl
  have := captureFree_cap r hr _ _ hM
  rw [hcap] at this
  simp only [St.init, Prod.mk.injEq] at this
  have hb := utf8Len_nil_of_zero this.1
  have hbc := utf8Len_nil_of_zero this.2
  subst hb
  simp at hbc ho
  exact ⟨hbc, ho⟩

/-- **C04** For a pattern `pre [x] post` with no other capture, the captured text is text matched by `x`, between
text matched by `pre` and text matched by `post`. -/
theorem C04_capture_matches_group {τ : Type} (pre x post : Regexp) (h1 : RangeFree pre) (h2 : RangeFree x)
    (h3 : RangeFree post) (c2 : CaptureFree x) (c3 : CaptureFree post)
    (payload : τ) (lower : Char → List Char) (input : List Char) (env : Nat → Option Nat) (atStart : Bool) (f : Found τ)
    (h : findAnchored (compile (.concat (.concat pre (.capture x)) post) payload) lower input env atStart
      = .ok (some f)) :
    ∃ s1 s2 s3 after, Matches lower env atStart pre (St.init input) s1 ∧
      Matches lower env atStart x { s1 with cap := (s1.sp, 0) } s2 ∧
      Matches lower env atStart post { s2 with cap := (s1.sp, s2.sp) } s3 ∧
      s1.rest = f.capture ++ s2.rest ∧ s2.rest = after ++ s3.rest ∧
      input.length = f.offset + s1.rest.length ∧ f.length = f.offset + f.capture.length + after.length := by
  obtain ⟨res, h', _, hs⟩ := findAnchored_spec (.concat (.concat pre (.capture x)) post) payload lower input env atStart
  rw [h] at h'; cases h'
  obtain ⟨s', before, after, consumed, ⟨s2, ⟨s1, hpre, t, hx, rfl⟩, hpost⟩, hin, hl, hc, ho, hcap, hp⟩ := hs f rfl
  have hpres := matches_preserves (input := input) pre _ _ hpre ⟨[], by simp [St.init], rfl⟩
  obtain ⟨⟨p1, hp1, hl1⟩, _, _, _⟩ := hpres
  have hx2 := matches_preserves (input := input) x _ _ hx ⟨p1, hp1, hl1⟩
  obtain ⟨⟨p2, hp2, hl2⟩, hle, _, _⟩ := hx2
  have hcx := captureFree_cap x c2 _ _ hx
  have hcp := captureFree_cap post c3 _ _ hpost
  simp only at hcx hcp hle
  rw [hcap, hcx] at hcp
  simp only [Prod.mk.injEq] at hcp
  have hb : before = p1 := by
    obtain ⟨m, hm⟩ := prefix_of_le (a := before) (c := p1) (b := f.capture ++ after ++ s'.rest) (d := s1.rest)
      (by rw [← hp1]; conv => rhs; rw [hin, hc]
          simp) (by omega)
    have : utf8Len m = 0 := by
      have := congrArg utf8Len hm; rw [utf8Len_append] at this; omega
    rw [utf8Len_nil_of_zero this] at hm; simpa using hm.symm
  have hb2 : before ++ f.capture = p2 := by
    obtain ⟨m, hm⟩ := prefix_of_le (a := before ++ f.capture) (c := p2) (b := after ++ s'.rest) (d := t.rest)
      (by rw [← hp2]; conv => rhs; rw [hin, hc]
          simp) (by omega)
    have : utf8Len m = 0 := by
      have := congrArg utf8Len hm; rw [utf8Len_append] at this; omega
    rw [utf8Len_nil_of_zero this] at hm; simpa using hm.symm
  have e1 : s1.rest = f.capture ++ t.rest := by
    have := hp1.symm.trans hp2
    rw [← hb2, ← hb, List.append_assoc] at this
    exact List.append_cancel_left this
  have e2 : t.rest = after ++ s'.rest := by
    have := hp2.symm.trans hin
    rw [hc, ← hb2, List.append_assoc (before ++ f.capture) after] at this
    exact List.append_cancel_left this
  refine ⟨s1, t, s', after, rangeFree_irrelevant pre h1 _ _ hpre, rangeFree_irrelevant x h2 _ _ hx, ?_, e1, e2, ?_, ?_⟩
  · have := rangeFree_irrelevant (rng' := rangeSpec) post h3 _ _ hpost
    rw [hcx] at this; exact this
  · rw [ho, hb, hp1]; simp
  · rw [hl, hc, ho]; simp; omega

-- a multi-byte text: the capture "öß" of pre "ä", matched by [öß]+, then "x"
example : findAnchored (compile (.concat (.concat (.string ['ä']) (.capture (.oneOrMore (.cls ['ö', 'ß'])))) (.string ['x'])) 7)
    idLower ['ä', 'ö', 'ß', 'x'] (fun _ => none) false = .ok (some ⟨['ö', 'ß'], 4, 1, 7⟩) := by rfl

/-! ### C02: the bounded range quantifier -/

/-- **C02 (negation)** `a{1,3}` followed by the end of the text must match "aa" and must not match "aaaaa"; the code
does the opposite in both cases. -/
theorem C02_range_quantifier_wrong :
    (∃ s', Matches idLower (fun _ => none) false (.concat (.repeatAtLeastAtMost 1 3 (.literal 'a')) .endAnchor)
        (St.init ['a', 'a']) s') ∧
    findAnchored (compile (.concat (.repeatAtLeastAtMost 1 3 (.literal 'a')) .endAnchor) ()) idLower ['a', 'a']
        (fun _ => none) false = .ok none ∧
    (¬ ∃ s', Matches idLower (fun _ => none) false (.concat (.repeatAtLeastAtMost 1 3 (.literal 'a')) .endAnchor)
        (St.init ['a', 'a', 'a', 'a', 'a']) s') ∧
    findAnchored (compile (.concat (.repeatAtLeastAtMost 1 3 (.literal 'a')) .endAnchor) ()) idLower
        ['a', 'a', 'a', 'a', 'a'] (fun _ => none) false = .ok (some ⟨[], 5, 0, ()⟩) := by
  have len : ∀ n s s', Iter (MatchesWith rangeSpec idLower (fun _ => none) false (.literal 'a')) n s s' →
      s.rest.length = n + s'.rest.length := by
    intro n
    induction n with
    | zero => intro s s' h; simp [Iter] at h; simp [h]
    | succ n ih =>
      rintro s s' ⟨t, ⟨c, tl, hr, _, rfl⟩, h2⟩
      have := ih _ _ h2
      simp only [St.adv] at this
      rw [hr, List.length_cons, this]; omega
  refine ⟨⟨⟨2, [], (0, 0)⟩, ⟨2, [], (0, 0)⟩, ⟨2, ⟨by omega, by omega⟩, ?_⟩, ?_⟩, by rfl, ?_, by rfl⟩
  · exact ⟨_, ⟨'a', ['a'], rfl, rfl, rfl⟩, _, ⟨'a', [], rfl, rfl, rfl⟩, rfl⟩
  · exact ⟨rfl, rfl⟩
  · rintro ⟨s', t, ⟨k, ⟨_, hk⟩, hi⟩, hend, rfl⟩
    have := len _ _ _ hi
    rw [hend] at this
    simp [St.init] at this
    omega

/-- **C02 (what the code does)** `x{min,max}` accepts exactly `min + k·(max-min)` repetitions, for any `k`. -/
theorem C02_range_actual {τ : Type} (r rest : Regexp) (hr : RangeFree r) (hrest : RangeFree rest) (min max : Nat)
    (payload : τ) (lower : Char → List Char) (input : List Char) (env : Nat → Option Nat) (atStart : Bool) :
    (∃ f, findAnchored (compile (.concat (.repeatAtLeastAtMost min max r) rest) payload) lower input env atStart
        = .ok (some f)) ↔
      ∃ k t s', Iter (Matches lower env atStart r) (min + k * (max - min)) (St.init input) t ∧
        Matches lower env atStart rest t s' := by
  have iter : ∀ {R R' : St → St → Prop}, (∀ s s', R s s' → R' s s') → ∀ n s s', Iter R n s s' → Iter R' n s s' := by
    intro R R' h n
    induction n with
    | zero => intro s s' hi; exact hi
    | succ n ih => rintro s s' ⟨t, h1, h2⟩; exact ⟨t, h _ _ h1, ih _ _ h2⟩
  obtain ⟨res, h, hc, hs⟩ := findAnchored_spec (.concat (.repeatAtLeastAtMost min max r) rest) payload lower input env atStart
  rw [h]
  constructor
  · rintro ⟨f, hf⟩
    cases hf
    obtain ⟨s', _, _, _, ⟨t, ⟨_, ⟨k, rfl⟩, hi⟩, h2⟩, _⟩ := hs f rfl
    exact ⟨k, t, s', iter (rangeFree_irrelevant r hr) _ _ _ hi, rangeFree_irrelevant rest hrest _ _ h2⟩
  · rintro ⟨k, t, s', hi, h2⟩
    have := hc ⟨s', t, ⟨_, ⟨k, rfl⟩, iter (rangeFree_irrelevant r hr) _ _ _ hi⟩, rangeFree_irrelevant rest hrest _ _ h2⟩
    obtain ⟨f, rfl⟩ := Option.isSome_iff_exists.1 this
    exact ⟨f, rfl⟩

/-- **C02 (partial)** What remains true: a pattern that *ends* with `x{min,max}` (min ≤ max) matches some prefix iff
it should. Missing: the number of copies consumed, and anything that follows the quantifier. -/
theorem C02_range_tail_partial {τ : Type} (r : Regexp) (hr : RangeFree r) (min max : Nat) (hle : min ≤ max)
    (payload : τ) (lower : Char → List Char) (input : List Char) (env : Nat → Option Nat) (atStart : Bool) :
    (∃ f, findAnchored (compile (.repeatAtLeastAtMost min max r) payload) lower input env atStart = .ok (some f)) ↔
      ∃ s', Matches lower env atStart (.repeatAtLeastAtMost min max r) (St.init input) s' := by
  have iter : ∀ {R R' : St → St → Prop}, (∀ s s', R s s' → R' s s') → ∀ n s s', Iter R n s s' → Iter R' n s s' := by
    intro R R' h n
    induction n with
    | zero => intro s s' hi; exact hi
    | succ n ih => rintro s s' ⟨t, h1, h2⟩; exact ⟨t, h _ _ h1, ih _ _ h2⟩
  obtain ⟨res, h, hc, hs⟩ := findAnchored_spec (.repeatAtLeastAtMost min max r) payload lower input env atStart
  rw [h]
  constructor
  · rintro ⟨f, hf⟩
    cases hf
    obtain ⟨s', _, _, _, ⟨_, ⟨k, rfl⟩, hi⟩, _⟩ := hs f rfl
    obtain ⟨t, h1, _⟩ := Iter.split hi
    exact ⟨t, min, ⟨Nat.le_refl _, hle⟩, iter (rangeFree_irrelevant r hr) _ _ _ h1⟩
  · rintro ⟨s', k, ⟨h1, _⟩, hi⟩
    obtain ⟨j, rfl⟩ := Nat.exists_eq_add_of_le h1
    obtain ⟨t, h1, _⟩ := Iter.split hi
    have := hc ⟨t, min, ⟨0, by simp⟩, iter (rangeFree_irrelevant r hr) _ _ _ h1⟩
    obtain ⟨f, rfl⟩ := Option.isSome_iff_exists.1 this
    exact ⟨f, rfl⟩

example : ∃ f, findAnchored (compile (.repeatAtLeastAtMost 2 3 (.literal 'a')) ()) idLower ['a', 'a', 'b'] (fun _ => none) false
    = .ok (some f) := ⟨_, rfl⟩

end Louis.Regexp
