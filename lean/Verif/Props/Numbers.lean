import Verif.Props.Spans

/-!
# C21: numbers; C23: where punctuation rules may apply
-/

namespace Louis

open Regexp (Fault)

/-! ## What a number is -/

/-- There is a digit at position `k`. -/
def DigitAt (n : NumericChars) (chars : Text) (k : Nat) : Prop := ∃ c, chars[k]? = some c ∧ c ∈ n.digits

/-- The character at `k` continues a number: it is a digit, or a numeric-mode character, or (in tables without
numeric-mode characters) a mid-number character directly followed by a digit. -/
def Continues (n : NumericChars) (chars : Text) (k : Nat) : Prop :=
  ∃ c, chars[k]? = some c ∧
    (c ∈ n.digits ∨ c ∈ n.extra ∨ (n.extra = [] ∧ c ∈ n.mid ∧ DigitAt n chars (k + 1)))

/-- Position `p` belongs to a number: a number starts with a digit at or before `p` and goes on up to `p`. -/
def InNumber (n : NumericChars) (chars : Text) (p : Nat) : Prop :=
  ∃ i, i ≤ p ∧ DigitAt n chars i ∧ ∀ k, i < k → k ≤ p → Continues n chars k

/-- The position before `p` belongs to a number. -/
def AfterNumber (n : NumericChars) (chars : Text) (p : Nat) : Prop := ∃ q, q + 1 = p ∧ InNumber n chars q

theorem inNumber_step (n : NumericChars) (chars : Text) (p : Nat) :
    InNumber n chars p ↔ DigitAt n chars p ∨ (AfterNumber n chars p ∧ Continues n chars p) := by
  constructor
  · rintro ⟨i, h1, h2, h3⟩
    by_cases hi : i = p
    · left; rw [← hi]; exact h2
    · right
      refine ⟨⟨p - 1, by omega, i, by omega, h2, ?_⟩, h3 p (by omega) (Nat.le_refl _)⟩
      intro k hk1 hk2; exact h3 k hk1 (by omega)
  · rintro (h | ⟨⟨q, hq, i, h1, h2, h3⟩, h4⟩)
    · exact ⟨p, Nat.le_refl _, h, by intro k h1 h2; omega⟩
    · refine ⟨i, by omega, h2, ?_⟩
      intro k hk1 hk2
      by_cases hk : k = p
      · rw [hk]; exact h4
      · exact h3 k hk1 (by omega)

theorem getElem?_append_here (pre cs : Text) (c : Char) : (pre ++ c :: cs)[pre.length]? = some c := by simp

theorem getElem?_append_next (pre cs : Text) (c : Char) : (pre ++ c :: cs)[pre.length + 1]? = cs.head? := by
  rw [List.getElem?_append_right (by omega)]; cases cs <;> simp

theorem digitAt_here (n : NumericChars) (pre cs : Text) (c : Char) :
    DigitAt n (pre ++ c :: cs) pre.length ↔ n.digits.contains c = true := by
  unfold DigitAt; simp [getElem?_append_here]

theorem digitAt_next (n : NumericChars) (pre cs : Text) (c : Char) :
    DigitAt n (pre ++ c :: cs) (pre.length + 1) ↔ (cs.head?).any (n.digits.contains ·) = true := by
  unfold DigitAt; rw [getElem?_append_next]; cases cs <;> simp

theorem continues_here (n : NumericChars) (pre cs : Text) (c : Char) (hd : n.digits.contains c = false) :
    Continues n (pre ++ c :: cs) pre.length ↔
      (n.extra.contains c = true ∨
        (n.extra.isEmpty && n.mid.contains c && (cs.head?).any (n.digits.contains ·)) = true) := by
  unfold Continues
  rw [digitAt_next]
  simp only [getElem?_append_here, Option.some.injEq, exists_eq_left', Bool.and_eq_true, List.isEmpty_iff,
    List.contains_iff_mem]
  have : ¬ c ∈ n.digits := by simpa using hd
  constructor
  · rintro (h | h | ⟨h1, h2, h3⟩)
    · exact absurd h this
    · exact .inl h
    · exact .inr ⟨⟨h1, h2⟩, h3⟩
  · rintro (h | ⟨⟨h1, h2⟩, h3⟩)
    · exact .inr (.inl h)
    · exact .inr (.inr ⟨h1, h2, h3⟩)

theorem afterNumber_succ (n : NumericChars) (chars : Text) (p : Nat) :
    AfterNumber n chars (p + 1) ↔ InNumber n chars p :=
  ⟨fun ⟨q, hq, h⟩ => by rw [show p = q by omega]; exact h, fun h => ⟨p, rfl, h⟩⟩

theorem compute_cons (n : NumericChars) (b : Bool) (c : Char) (cs : Text) :
    n.compute b (c :: cs) =
      if n.digits.contains c = true then true :: n.compute true cs
      else if b = true then
        if n.extra.contains c then true :: n.compute true cs
        else if n.extra.isEmpty && n.mid.contains c && (cs.head?).any (n.digits.contains ·) then true :: n.compute true cs
        else false :: n.compute false cs
      else false :: n.compute false cs := by
  conv => lhs; unfold NumericChars.compute
  cases n.digits.contains c <;> cases b <;> rfl

theorem numLoop_cons (x : NumIndicator) (pos : Nat) (b : Bool) (c : Char) (cs : Text) :
    x.loop pos b (c :: cs) =
      if x.chars.digits.contains c = true then
        (if b = true then [] else (x.start.map fun t => (pos, t)).toList) ++ x.loop (pos + 1) true cs
      else if b = true then
        if x.chars.extra.contains c then x.loop (pos + 1) true cs
        else if x.chars.extra.isEmpty && x.chars.mid.contains c && (cs.head?).any (x.chars.digits.contains ·) then
          x.loop (pos + 1) true cs
        else (if x.terminating.contains c then (x.stop.map fun t => (pos, t)).toList else []) ++ x.loop (pos + 1) false cs
      else x.loop (pos + 1) false cs := by
  conv => lhs; unfold NumIndicator.loop
  cases x.chars.digits.contains c <;> cases b <;> first | rfl | (simp only [Bool.false_eq_true, if_false, if_true]; split <;> first | rfl | (split <;> first | rfl | (split <;> rfl)))

theorem compute_spec (n : NumericChars) (cs : Text) : ∀ (pre : Text) (b : Bool),
    (b = true ↔ AfterNumber n (pre ++ cs) pre.length) →
    (n.compute b cs).length = cs.length ∧
    ∀ j, j < cs.length → (flagAt (n.compute b cs) j = true ↔ InNumber n (pre ++ cs) (pre.length + j)) := by
  induction cs with
  | nil => intro pre b _; exact ⟨by simp [NumericChars.compute], by intro j hj; simp at hj⟩
  | cons c cs ih =>
    intro pre b hb
    -- the state after this character
    have key : ∀ (b' : Bool), (b' = true ↔ InNumber n (pre ++ c :: cs) pre.length) →
        n.compute b (c :: cs) = b' :: n.compute b' cs →
        (n.compute b (c :: cs)).length = (c :: cs).length ∧
        ∀ j, j < (c :: cs).length →
          (flagAt (n.compute b (c :: cs)) j = true ↔ InNumber n (pre ++ c :: cs) (pre.length + j)) := by
      intro b' hb' heq
      have := ih (pre ++ [c]) b' (by
        rw [List.append_assoc, List.singleton_append, List.length_append, List.length_singleton, afterNumber_succ]; exact hb')
      rw [heq]
      refine ⟨by simp [this.1], ?_⟩
      intro j hj
      cases j with
      | zero => simpa [flagAt] using hb'
      | succ j =>
        have h2 := this.2 j (by simpa using hj)
        rw [List.append_assoc, List.singleton_append, List.length_append, List.length_singleton] at h2
        rw [show pre.length + (j + 1) = pre.length + 1 + j by omega, ← h2]
        simp [flagAt]
    have hstep := inNumber_step n (pre ++ c :: cs) pre.length
    rw [digitAt_here] at hstep
    cases hd : n.digits.contains c with
    | true =>
      have hin : InNumber n (pre ++ c :: cs) pre.length := hstep.mpr (.inl hd)
      cases b <;> exact key true (by simp [hin]) (by rw [compute_cons, hd]; rfl)
    | false =>
      rw [continues_here n pre cs c hd, hd] at hstep
      simp only [Bool.false_eq_true, false_or] at hstep
      cases b with
      | false =>
        refine key false ?_ (by rw [compute_cons, hd]; rfl)
        simp only [Bool.false_eq_true, false_iff] at hb ⊢
        rw [hstep]; exact fun h => hb h.1
      | true =>
        have hb' := hb.mp rfl
        by_cases he : n.extra.contains c = true
        · refine key true ?_ (by rw [compute_cons, if_neg (by rw [hd]; decide), if_pos rfl, if_pos he])
          exact ⟨fun _ => hstep.mpr ⟨hb', .inl he⟩, fun _ => rfl⟩
        · by_cases hm : (n.extra.isEmpty && n.mid.contains c && (cs.head?).any (n.digits.contains ·)) = true
          · refine key true ?_ (by rw [compute_cons, if_neg (by rw [hd]; decide), if_pos rfl, if_neg he, if_pos hm])
            exact ⟨fun _ => hstep.mpr ⟨hb', .inr hm⟩, fun _ => rfl⟩
          · refine key false ?_ (by rw [compute_cons, if_neg (by rw [hd]; decide), if_pos rfl, if_neg he, if_neg hm])
            rw [hstep]
            constructor
            · intro h; cases h
            · rintro ⟨_, h | h⟩
              · exact absurd h he
              · exact absurd h hm

theorem not_afterNumber_zero (n : NumericChars) (chars : Text) : ¬ AfterNumber n chars 0 := by
  rintro ⟨q, hq, _⟩; omega

/-- **C21**, where contractions are switched off: at exactly the positions that belong to a number. -/
theorem C21_numeric_mode (n : NumericChars) (input : Text) (p : Nat) :
    flagAt (n.compute false input) p = true ↔ p < input.length ∧ InNumber n input p := by
  have := compute_spec n input [] false (by simp [not_afterNumber_zero])
  by_cases hp : p < input.length
  · have h := this.2 p hp
    simp only [List.nil_append, List.length_nil, Nat.zero_add] at h
    rw [h]; simp [hp]
  · unfold flagAt
    rw [List.getElem?_eq_none (by omega)]
    simp [hp]

/-! ## The number sign -/

theorem numLoop_spec (x : NumIndicator) (cs : Text) : ∀ (pre : Text) (b : Bool),
    (b = true ↔ AfterNumber x.chars (pre ++ cs) pre.length) →
    ∀ p t, (p, t) ∈ x.loop pre.length b cs ↔
      pre.length ≤ p ∧ p < pre.length + cs.length ∧
      ((x.start = some t ∧ DigitAt x.chars (pre ++ cs) p ∧ ¬ AfterNumber x.chars (pre ++ cs) p) ∨
       (x.stop = some t ∧ AfterNumber x.chars (pre ++ cs) p ∧ ¬ InNumber x.chars (pre ++ cs) p ∧
        ∃ c, (pre ++ cs)[p]? = some c ∧ c ∈ x.terminating)) := by
  induction cs with
  | nil => intro pre b _ p t; simp [NumIndicator.loop]; intro h1 h2; omega
  | cons c cs ih =>
    intro pre b hb p t
    have key : ∀ (b' : Bool) (here : List (Nat × Resolved)),
        (b' = true ↔ InNumber x.chars (pre ++ c :: cs) pre.length) →
        x.loop pre.length b (c :: cs) = here ++ x.loop (pre.length + 1) b' cs →
        ((p, t) ∈ here ↔ p = pre.length ∧
          ((x.start = some t ∧ DigitAt x.chars (pre ++ c :: cs) p ∧ ¬ AfterNumber x.chars (pre ++ c :: cs) p) ∨
           (x.stop = some t ∧ AfterNumber x.chars (pre ++ c :: cs) p ∧ ¬ InNumber x.chars (pre ++ c :: cs) p ∧
            ∃ c', (pre ++ c :: cs)[p]? = some c' ∧ c' ∈ x.terminating))) →
        ((p, t) ∈ x.loop pre.length b (c :: cs) ↔ pre.length ≤ p ∧ p < pre.length + (c :: cs).length ∧
          ((x.start = some t ∧ DigitAt x.chars (pre ++ c :: cs) p ∧ ¬ AfterNumber x.chars (pre ++ c :: cs) p) ∨
           (x.stop = some t ∧ AfterNumber x.chars (pre ++ c :: cs) p ∧ ¬ InNumber x.chars (pre ++ c :: cs) p ∧
            ∃ c', (pre ++ c :: cs)[p]? = some c' ∧ c' ∈ x.terminating))) := by
      intro b' here hb' heq hhere
      have h := ih (pre ++ [c]) b' (by
        rw [List.append_assoc, List.singleton_append, List.length_append, List.length_singleton, afterNumber_succ]; exact hb') p t
      rw [List.append_assoc, List.singleton_append, List.length_append, List.length_singleton] at h
      rw [heq, List.mem_append, hhere, h]
      simp only [List.length_cons]
      constructor
      · rintro (⟨h1, h2⟩ | ⟨h1, h2, h3⟩)
        · exact ⟨by omega, by omega, h2⟩
        · exact ⟨by omega, by omega, h3⟩
      · rintro ⟨h1, h2, h3⟩
        by_cases hp : p = pre.length
        · exact .inl ⟨hp, h3⟩
        · exact .inr ⟨by omega, by omega, h3⟩
    have hstep := inNumber_step x.chars (pre ++ c :: cs) pre.length
    have hdig := digitAt_here x.chars pre cs c
    cases hd : x.chars.digits.contains c with
    | true =>
      have hin : InNumber x.chars (pre ++ c :: cs) pre.length := hstep.mpr (.inl (hdig.mpr hd))
      cases b with
      | false =>
        refine key true (x.start.map fun t => (pre.length, t)).toList (by simp [hin])
          (by rw [numLoop_cons, hd]; rfl) ?_
        have hna : ¬ AfterNumber x.chars (pre ++ c :: cs) pre.length := fun h => by simpa using hb.mpr h
        constructor
        · intro h
          simp only [Option.mem_toList, Option.map_eq_some_iff, Prod.mk.injEq] at h
          obtain ⟨t', h1, h2, h3⟩ := h
          subst h2; subst h3
          exact ⟨rfl, .inl ⟨h1, hdig.mpr hd, hna⟩⟩
        · rintro ⟨rfl, (⟨h1, _, _⟩ | ⟨_, h2, _⟩)⟩
          · simp [h1]
          · exact absurd h2 hna
      | true =>
        refine key true [] (by simp [hin]) (by rw [numLoop_cons, hd]; rfl) ?_
        simp only [List.not_mem_nil, false_iff]
        rintro ⟨rfl, (⟨_, _, h3⟩ | ⟨_, _, h3, _⟩)⟩
        · exact h3 (hb.mp rfl)
        · exact h3 hin
    | false =>
      have hnd : ¬ DigitAt x.chars (pre ++ c :: cs) pre.length := by rw [hdig, hd]; simp
      rw [continues_here x.chars pre cs c hd] at hstep
      have hstep' : InNumber x.chars (pre ++ c :: cs) pre.length ↔ AfterNumber x.chars (pre ++ c :: cs) pre.length ∧
        (x.chars.extra.contains c = true ∨
          (x.chars.extra.isEmpty && x.chars.mid.contains c && (cs.head?).any (x.chars.digits.contains ·)) = true) := by
        rw [hstep]; simp [hnd]
      cases b with
      | false =>
        have hna : ¬ AfterNumber x.chars (pre ++ c :: cs) pre.length := fun h => by simpa using hb.mpr h
        refine key false [] ?_ (by rw [numLoop_cons, hd]; rfl) ?_
        · simp only [Bool.false_eq_true, false_iff]; rw [hstep']; exact fun h => hna h.1
        · simp only [List.not_mem_nil, false_iff]
          rintro ⟨rfl, (⟨_, h2, _⟩ | ⟨_, h2, _⟩)⟩
          · exact hnd h2
          · exact hna h2
      | true =>
        have ha := hb.mp rfl
        have stay : InNumber x.chars (pre ++ c :: cs) pre.length → ((p, t) ∈ ([] : List (Nat × Resolved)) ↔ p = pre.length ∧
          ((x.start = some t ∧ DigitAt x.chars (pre ++ c :: cs) p ∧ ¬ AfterNumber x.chars (pre ++ c :: cs) p) ∨
           (x.stop = some t ∧ AfterNumber x.chars (pre ++ c :: cs) p ∧ ¬ InNumber x.chars (pre ++ c :: cs) p ∧
            ∃ c', (pre ++ c :: cs)[p]? = some c' ∧ c' ∈ x.terminating))) := by
          intro hin
          simp only [List.not_mem_nil, false_iff]
          rintro ⟨rfl, (⟨_, h2, _⟩ | ⟨_, _, h3, _⟩)⟩
          · exact hnd h2
          · exact h3 hin
        by_cases he : x.chars.extra.contains c = true
        · have hin := hstep'.mpr ⟨ha, .inl he⟩
          exact key true [] (by simp [hin]) (by rw [numLoop_cons, if_neg (by rw [hd]; decide), if_pos rfl, if_pos he, List.nil_append]) (stay hin)
        · by_cases hm : (x.chars.extra.isEmpty && x.chars.mid.contains c && (cs.head?).any (x.chars.digits.contains ·)) = true
          · have hin := hstep'.mpr ⟨ha, .inr hm⟩
            exact key true [] (by simp [hin])
              (by rw [numLoop_cons, if_neg (by rw [hd]; decide), if_pos rfl, if_neg he, if_pos hm, List.nil_append]) (stay hin)
          · have hni : ¬ InNumber x.chars (pre ++ c :: cs) pre.length := by
              rw [hstep']; rintro ⟨_, h | h⟩
              · exact he h
              · exact hm h
            refine key false (if x.terminating.contains c then (x.stop.map fun t => (pre.length, t)).toList else [])
              (by simp [hni])
              (by rw [numLoop_cons, if_neg (by rw [hd]; decide), if_pos rfl, if_neg he, if_neg hm]) ?_
            constructor
            · intro h
              by_cases ht : x.terminating.contains c = true
              · rw [if_pos ht] at h
                simp only [Option.mem_toList, Option.map_eq_some_iff, Prod.mk.injEq] at h
                obtain ⟨t', h1, h2, h3⟩ := h
                subst h2; subst h3
                exact ⟨rfl, .inr ⟨h1, ha, hni, c, getElem?_append_here .., by simpa using ht⟩⟩
              · rw [if_neg ht] at h; simp at h
            · rintro ⟨rfl, (⟨_, h2, _⟩ | ⟨h1, _, _, c', h4, h5⟩)⟩
              · exact absurd h2 hnd
              · rw [getElem?_append_here] at h4
                injection h4 with h4; subst h4
                rw [if_pos (by simpa using h5)]
                simp [h1]

/-- **C21**, where the signs go: the number sign goes exactly to the digits at which a number starts (the character before
does not belong to a number), and the end sign exactly to the terminating characters directly after a number. -/
theorem C21_number_sign (x : NumIndicator) (input : Text) (sign : Resolved) (hs : x.start = some sign) (p : Nat)
    (t : Resolved) :
    (p, t) ∈ x.precompute input ↔ p < input.length ∧
      ((t = sign ∧ DigitAt x.chars input p ∧ ¬ AfterNumber x.chars input p) ∨
       (x.stop = some t ∧ AfterNumber x.chars input p ∧ ¬ InNumber x.chars input p ∧
        ∃ c, input[p]? = some c ∧ c ∈ x.terminating)) := by
  unfold NumIndicator.precompute
  rw [hs]
  simp only [Option.isNone_some, Bool.false_eq_true, if_false]
  have := numLoop_spec x input [] false (by simp [not_afterNumber_zero]) p t
  simp only [List.nil_append, List.length_nil, Nat.zero_le, true_and, Nat.zero_add] at this
  rw [this, hs]
  constructor
  · rintro ⟨h1, (⟨h2, h3⟩ | h2)⟩
    · injection h2 with h2; exact ⟨h1, .inl ⟨h2.symm, h3⟩⟩
    · exact ⟨h1, .inr h2⟩
  · rintro ⟨h1, (⟨h2, h3⟩ | h2)⟩
    · exact ⟨h1, .inl ⟨by rw [h2], h3⟩⟩
    · exact ⟨h1, .inr h2⟩

theorem numLoop_sorted (x : NumIndicator) (cs : Text) : ∀ (pos : Nat) (b : Bool),
    (∀ e ∈ x.loop pos b cs, pos ≤ e.1) ∧ (x.loop pos b cs).Pairwise (fun a b => a.1 < b.1) := by
  induction cs with
  | nil => intro pos b; simp [NumIndicator.loop]
  | cons c cs ih =>
    intro pos b
    have key : ∀ (here : List (Nat × Resolved)) (b' : Bool), (∀ e ∈ here, e.1 = pos) → here.length ≤ 1 →
        (∀ e ∈ here ++ x.loop (pos + 1) b' cs, pos ≤ e.1) ∧
        (here ++ x.loop (pos + 1) b' cs).Pairwise (fun a b => a.1 < b.1) := by
      intro here b' h1 h2
      obtain ⟨i1, i2⟩ := ih (pos + 1) b'
      constructor
      · intro e he
        rcases List.mem_append.mp he with he | he
        · rw [h1 e he]; exact Nat.le_refl _
        · have := i1 e he; omega
      · rw [List.pairwise_append]
        refine ⟨?_, i2, ?_⟩
        · match here, h2 with
          | [], _ => exact List.Pairwise.nil
          | [_], _ => simp
        · intro a ha e he
          have := i1 e he
          rw [h1 a ha]; omega
    have hone : ∀ (o : Option Resolved), (∀ e ∈ (o.map fun t => (pos, t)).toList, e.1 = pos) ∧
        (o.map fun t => (pos, t)).toList.length ≤ 1 := by
      intro o; cases o <;> simp
    unfold NumIndicator.loop
    split
    · exact key [] false (by simp) (by simp)
    · exact key _ true (hone _).1 (hone _).2
    · exact key [] true (by simp) (by simp)
    · split
      · exact key [] true (by simp) (by simp)
      · split
        · exact key [] true (by simp) (by simp)
        · split
          · exact key _ false (hone _).1 (hone _).2
          · exact key [] false (by simp) (by simp)

/-- **C21**, exactly once: at no position is more than one numeric indication given. -/
theorem C21_once (x : NumIndicator) (input : Text) : (x.precompute input).Pairwise (fun a b => a.1 < b.1) := by
  unfold NumIndicator.precompute
  split
  · exact List.Pairwise.nil
  · exact (numLoop_sorted x input 0 false).2

/-- **C21**, agreement: with the same character sets, a number sign is due at `p` exactly when contractions are switched off
at `p` but not just before `p`, so the two passes never disagree on where a number starts. -/
theorem C21_agree (x : NumIndicator) (input : Text) (sign : Resolved) (hs : x.start = some sign)
    (hne : x.stop ≠ some sign) (p : Nat) :
    (p, sign) ∈ x.precompute input ↔
      flagAt (x.chars.compute false input) p = true ∧
      (p = 0 ∨ flagAt (x.chars.compute false input) (p - 1) = false) := by
  rw [C21_number_sign x input sign hs, C21_numeric_mode]
  have hstep := inNumber_step x.chars input p
  constructor
  · rintro ⟨hp, (⟨_, h2, h3⟩ | ⟨h, _⟩)⟩
    · refine ⟨⟨hp, hstep.mpr (.inl h2)⟩, ?_⟩
      by_cases hp0 : p = 0
      · exact .inl hp0
      · right
        cases hf : flagAt (x.chars.compute false input) (p - 1) with
        | false => rfl
        | true => exact absurd ⟨p - 1, by omega, ((C21_numeric_mode x.chars input (p - 1)).mp hf).2⟩ h3
    · exact absurd h hne
  · rintro ⟨⟨hp, hin⟩, hprev⟩
    have hna : ¬ AfterNumber x.chars input p := by
      rintro ⟨q, hq, hin'⟩
      rcases hprev with h | h
      · omega
      · have := (C21_numeric_mode x.chars input q).mpr ⟨by omega, hin'⟩
        rw [show p - 1 = q by omega, this] at h; cases h
    refine ⟨hp, .inl ⟨rfl, ?_, hna⟩⟩
    rcases hstep.mp hin with h | ⟨h, _⟩
    · exact h
    · exact absurd h hna

/-- A case that meets the hypotheses: `1,2 x` with `,` mid-number has one number sign, at the first digit. -/
example :
    let n : NumericChars := ⟨['1', '2'], [], [',']⟩
    let sign := Resolved.new [] ['⠼'] 1 .main none
    let x : NumIndicator := ⟨n, some sign, none, []⟩
    x.precompute "a1,2 x,2".toList = [(1, sign), (7, sign)] ∧
      n.compute false "a1,2 x,2".toList = [false, true, true, true, false, false, false, true] := by decide +kernel

/-! ## C23: punctuation at the edges of words -/

theorem scan_spec (p : PunctChars) (cs : Text) :
    p.scan cs = true ↔ ∃ (k : Nat) (c : Char), cs[k]? = some c ∧ c ∈ p.lettersOrDigits ∧
      ∀ j (d : Char), j < k → cs[j]? = some d → d ∉ p.spaces := by
  induction cs with
  | nil => simp [PunctChars.scan]
  | cons a cs ih =>
    unfold PunctChars.scan
    split
    · next h =>
      exact ⟨fun _ => ⟨0, a, rfl, by simpa using h, by intro j d hj; omega⟩, fun _ => rfl⟩
    · next h =>
      split
      · next hs =>
        simp only [Bool.false_eq_true, false_iff]
        rintro ⟨k, c, h1, h2, h3⟩
        cases k with
        | zero => simp only [List.getElem?_cons_zero, Option.some.injEq] at h1; subst h1; exact h (by simpa using h2)
        | succ k => exact h3 0 a (by omega) rfl (by simpa using hs)
      · next hs =>
        rw [ih]
        constructor
        · rintro ⟨k, c, h1, h2, h3⟩
          refine ⟨k + 1, c, by simpa using h1, h2, ?_⟩
          intro j d hj hd
          cases j with
          | zero => simp only [List.getElem?_cons_zero, Option.some.injEq] at hd; subst hd; simpa using hs
          | succ j => exact h3 j d (by omega) (by simpa using hd)
        · rintro ⟨k, c, h1, h2, h3⟩
          cases k with
          | zero => simp only [List.getElem?_cons_zero, Option.some.injEq] at h1; subst h1; exact absurd (by simpa using h2) h
          | succ k =>
            exact ⟨k, c, by simpa using h1, h2, fun j d hj hd => h3 (j + 1) d (by omega) (by simpa using hd)⟩

/-- **C23**, where a `prepunc` rule may apply: at the positions not directly preceded by a letter from which, going right, a
letter or digit is reached before any space. -/
theorem C23_before_a_word (p : PunctChars) (input : Text) (pos : Nat) :
    p.prepunc input pos = true ↔
      (∀ q c, q + 1 = pos → input[q]? = some c → c ∉ p.letters) ∧
      ∃ k c, pos < k ∧ input[k]? = some c ∧ c ∈ p.lettersOrDigits ∧
        ∀ j d, pos < j → j < k → input[j]? = some d → d ∉ p.spaces := by
  unfold PunctChars.prepunc
  rw [Bool.and_eq_true, scan_spec]
  apply and_congr
  · cases pos with
    | zero => simp
    | succ pos =>
      have hz : (pos + 1 == 0) = false := by simp
      rw [hz, Bool.false_or, Nat.add_sub_cancel]
      cases hc : input[pos]? with
      | none =>
        simp only [Option.any_none, Bool.not_false, true_iff]
        intro q c hq h; rw [show q = pos by omega, hc] at h; cases h
      | some a =>
        simp only [Option.any_some, Bool.not_eq_true', List.contains_eq_mem, decide_eq_false_iff_not]
        constructor
        · intro h q c hq h'; rw [show q = pos by omega, hc] at h'; injection h' with h'; rw [← h']; exact h
        · intro h; exact h pos a rfl hc
  · constructor
    · rintro ⟨k, c, h1, h2, h3⟩
      rw [List.getElem?_drop] at h1
      refine ⟨pos + 1 + k, c, by omega, h1, h2, ?_⟩
      intro j d hj1 hj2 hd
      exact h3 (j - (pos + 1)) d (by omega) (by rw [List.getElem?_drop, show pos + 1 + (j - (pos + 1)) = j by omega]; exact hd)
    · rintro ⟨k, c, h0, h1, h2, h3⟩
      refine ⟨k - (pos + 1), c, by rw [List.getElem?_drop, show pos + 1 + (k - (pos + 1)) = k by omega]; exact h1, h2, ?_⟩
      intro j d hj hd
      rw [List.getElem?_drop] at hd
      exact h3 (pos + 1 + j) d (by omega) (by omega) hd

/-- **C23**, where a `postpunc` rule may apply: at the positions not directly followed by a letter from which, going left, a
letter or digit is reached before any space. -/
theorem C23_after_a_word (p : PunctChars) (input : Text) (pos : Nat) (hpos : pos < input.length) :
    p.postpunc input pos = true ↔
      (∀ c, input[pos + 1]? = some c → c ∉ p.letters) ∧
      ∃ k c, k < pos ∧ input[k]? = some c ∧ c ∈ p.lettersOrDigits ∧
        ∀ j d, k < j → j < pos → input[j]? = some d → d ∉ p.spaces := by
  unfold PunctChars.postpunc
  rw [Bool.and_eq_true, scan_spec]
  have hrev : ∀ k, k < pos → (input.take pos).reverse[k]? = input[pos - 1 - k]? := by
    intro k hk
    rw [List.getElem?_reverse (by rw [List.length_take]; omega), List.length_take, Nat.min_eq_left (by omega),
      List.getElem?_take_of_lt (by omega)]
  have hlen : (input.take pos).reverse.length = pos := by rw [List.length_reverse, List.length_take]; omega
  apply and_congr
  · by_cases hl : pos = input.length - 1
    · simp only [hl, beq_self_eq_true, Bool.true_or, true_iff]
      intro c h
      rw [List.getElem?_eq_none (by omega)] at h; cases h
    · have hz : (pos == input.length - 1) = false := by simpa using hl
      rw [hz, Bool.false_or]
      cases hc : input[pos + 1]? with
      | none => simp
      | some a => simp
  · constructor
    · rintro ⟨k, c, h1, h2, h3⟩
      have hk : k < pos := by
        rcases Nat.lt_or_ge k pos with h | h
        · exact h
        · rw [List.getElem?_eq_none (by omega)] at h1; cases h1
      rw [hrev k hk] at h1
      refine ⟨pos - 1 - k, c, by omega, h1, h2, ?_⟩
      intro j d hj1 hj2 hd
      exact h3 (pos - 1 - j) d (by omega) (by rw [hrev _ (by omega), show pos - 1 - (pos - 1 - j) = j by omega]; exact hd)
    · rintro ⟨k, c, h0, h1, h2, h3⟩
      refine ⟨pos - 1 - k, c, by rw [hrev _ (by omega), show pos - 1 - (pos - 1 - k) = k by omega]; exact h1, h2, ?_⟩
      intro j d hj hd
      rw [hrev j (by omega)] at hd
      exact h3 (pos - 1 - j) d (by omega) (by omega) hd

/-- Both kinds of positions occur: in `("ab")` the opening marks are before the word and the closing ones after it. -/
example :
    let p : PunctChars := ⟨['a', 'b'], ['a', 'b'], [' ']⟩
    (List.range 6).map (p.prepunc "(\"ab\")".toList) = [true, true, true, false, false, false] ∧
      (List.range 6).map (p.postpunc "(\"ab\")".toList) = [false, false, false, true, true, true] := by decide +kernel

end Louis
