import Verif.Props.WordsSeam

/-!
# C75: numbers, hyphenation and punctuation on both sides of a blank
-/

namespace Louis

section

variable {w v : Text} {b : Char}

theorem at_left {k : Nat} (h : k < w.length) : (w ++ b :: v)[k]? = w[k]? := List.getElem?_append_left h

theorem at_blank : (w ++ b :: v)[w.length]? = some b := by simp

theorem at_right (j : Nat) : (w ++ b :: v)[w.length + 1 + j]? = v[j]? := by
  rw [List.getElem?_append_right (by omega), show w.length + 1 + j - w.length = j + 1 by omega, List.getElem?_cons_succ]

/-! ## Numbers -/

/-- The blank cannot be part of a number. -/
structure NotNumeric (n : NumericChars) (b : Char) : Prop where
  digit : b ∉ n.digits
  extra : b ∉ n.extra
  mid : b ∉ n.mid

variable {n : NumericChars}

theorem digit_left (hb : NotNumeric n b) {k : Nat} (hk : k ≤ w.length) : DigitAt n (w ++ b :: v) k ↔ DigitAt n w k := by
  unfold DigitAt
  by_cases h : k < w.length
  · rw [at_left h]
  · have : k = w.length := by omega
    subst this
    rw [at_blank]
    constructor
    · rintro ⟨c, e, hc⟩; cases e; exact absurd hc hb.digit
    · rintro ⟨c, e, -⟩
      rw [List.getElem?_eq_none (Nat.le_refl _)] at e
      cases e

theorem digit_right (j : Nat) : DigitAt n (w ++ b :: v) (w.length + 1 + j) ↔ DigitAt n v j := by
  unfold DigitAt
  rw [at_right]

theorem continues_left (hb : NotNumeric n b) {k : Nat} (hk : k < w.length) : Continues n (w ++ b :: v) k ↔ Continues n w k := by
  unfold Continues
  rw [at_left hk, digit_left hb hk]

theorem continues_blank (hb : NotNumeric n b) : ¬ Continues n (w ++ b :: v) w.length := by
  unfold Continues
  rw [at_blank]
  rintro ⟨c, e, h⟩
  cases e
  rcases h with h | h | h
  · exact hb.digit h
  · exact hb.extra h
  · exact hb.mid h.2.1

theorem continues_right (j : Nat) : Continues n (w ++ b :: v) (w.length + 1 + j) ↔ Continues n v j := by
  unfold Continues
  rw [at_right, Nat.add_assoc (w.length + 1), digit_right]

theorem number_left (hb : NotNumeric n b) {p : Nat} (hp : p < w.length) : InNumber n (w ++ b :: v) p ↔ InNumber n w p := by
  unfold InNumber
  constructor
  · rintro ⟨i, h1, h2, h3⟩
    exact ⟨i, h1, (digit_left hb (by omega)).1 h2, fun k a c => (continues_left hb (by omega)).1 (h3 k a c)⟩
  · rintro ⟨i, h1, h2, h3⟩
    exact ⟨i, h1, (digit_left hb (by omega)).2 h2, fun k a c => (continues_left hb (by omega)).2 (h3 k a c)⟩

theorem number_blank (hb : NotNumeric n b) : ¬ InNumber n (w ++ b :: v) w.length := by
  rw [inNumber_step]
  rintro (h | ⟨-, h⟩)
  · obtain ⟨c, e, hc⟩ := h
    rw [at_blank] at e
    cases e
    exact hb.digit hc
  · exact continues_blank hb h

theorem number_right (hb : NotNumeric n b) (j : Nat) : InNumber n (w ++ b :: v) (w.length + 1 + j) ↔ InNumber n v j := by
  unfold InNumber
  constructor
  · rintro ⟨i, h1, h2, h3⟩
    have hi : w.length < i := by
      rcases Nat.lt_trichotomy i w.length with h | h | h
      · exact absurd (h3 w.length h (by omega)) (continues_blank hb)
      · subst h
        obtain ⟨c, e, hc⟩ := h2
        rw [at_blank] at e
        cases e
        exact absurd hc hb.digit
      · exact h
    obtain ⟨i', rfl⟩ : ∃ i', i = w.length + 1 + i' := ⟨i - w.length - 1, by omega⟩
    exact ⟨i', by omega, (digit_right i').1 h2, fun k a c => (continues_right k).1 (h3 _ (by omega) (by omega))⟩
  · rintro ⟨i, h1, h2, h3⟩
    refine ⟨w.length + 1 + i, by omega, (digit_right i).2 h2, fun k a c => ?_⟩
    obtain ⟨k', rfl⟩ : ∃ k', k = w.length + 1 + k' := ⟨k - w.length - 1, by omega⟩
    exact (continues_right k').2 (h3 k' (by omega) (by omega))

theorem after_left (hb : NotNumeric n b) {p : Nat} (hp : p ≤ w.length) : AfterNumber n (w ++ b :: v) p ↔ AfterNumber n w p := by
  unfold AfterNumber
  constructor
  · rintro ⟨q, rfl, h⟩; exact ⟨q, rfl, (number_left hb (by omega)).1 h⟩
  · rintro ⟨q, rfl, h⟩; exact ⟨q, rfl, (number_left hb (by omega)).2 h⟩

theorem after_right (hb : NotNumeric n b) (j : Nat) : AfterNumber n (w ++ b :: v) (w.length + 1 + j) ↔ AfterNumber n v j := by
  unfold AfterNumber
  constructor
  · rintro ⟨q, e, h⟩
    cases j with
    | zero =>
      have : q = w.length := by omega
      subst this
      exact absurd h (number_blank hb)
    | succ j =>
      have : q = w.length + 1 + j := by omega
      subst this
      exact ⟨j, rfl, (number_right hb j).1 h⟩
  · rintro ⟨q, rfl, h⟩
    exact ⟨w.length + 1 + q, by omega, (number_right hb q).2 h⟩

/-! ## Hyphenation -/

variable {hy : Hyphenation} {letters : List Char}

theorem break_left (hb : b ∉ letters) {p : Nat} (hp : p < w.length) :
    BreakAfter hy letters (w ++ b :: v) p ↔ BreakAfter hy letters w p := by
  constructor
  · rintro ⟨a, x, c, e, h1, h2, h3, i, rfl, hi, hpt⟩
    have hbx : b ∉ x := fun h => hb (h1 b h)
    rw [List.append_assoc] at e
    -- the word ends before the blank
    rcases List.append_eq_append_iff.1 e with ⟨a', e1, e2⟩ | ⟨a', e1, e2⟩
    · exfalso
      rw [e1, List.length_append] at hp
      omega
    · rcases List.append_eq_append_iff.1 e2 with ⟨c', e3, e4⟩ | ⟨c', e3, e4⟩
      · refine ⟨a, x, c', by rw [e1, e3, List.append_assoc], h1, h2, fun y hy => h3 y ?_, i, rfl, hi, hpt⟩
        rw [e4]
        cases c' with
        | nil => cases hy
        | cons => exact hy
      · cases c' with
        | nil =>
          rw [List.append_nil] at e3
          exact ⟨a, x, [], by rw [e1, ← e3, List.append_nil], h1, h2, fun y hy => (by cases hy), i, rfl, hi, hpt⟩
        | cons y c' =>
          rw [List.cons_append] at e4
          injection e4 with e4 _
          subst e4
          exact absurd (by rw [e3]; simp) hbx
  · rintro ⟨a, x, c, rfl, h1, h2, h3, i, rfl, hi, hpt⟩
    refine ⟨a, x, c ++ b :: v, by simp, h1, h2, fun y hy => ?_, i, rfl, hi, hpt⟩
    cases c with
    | nil => cases hy; exact hb
    | cons => exact h3 y hy

theorem break_blank (hb : b ∉ letters) : ¬ BreakAfter hy letters (w ++ b :: v) w.length := by
  rintro ⟨a, x, c, e, h1, -, -, i, hp, hi, -⟩
  have : (a ++ x ++ c)[w.length]? = some b := by rw [← e]; exact at_blank
  rw [List.append_assoc, hp, List.getElem?_append_right (by omega), Nat.add_sub_cancel_left,
    List.getElem?_append_left (by omega)] at this
  exact hb (h1 b (List.mem_of_getElem? this))

theorem break_right (hb : b ∉ letters) (j : Nat) :
    BreakAfter hy letters (w ++ b :: v) (w.length + 1 + j) ↔ BreakAfter hy letters v j := by
  constructor
  · rintro ⟨a, x, c, e, h1, h2, h3, i, hp, hi, hpt⟩
    have hbx : b ∉ x := fun h => hb (h1 b h)
    have ha : w.length < a.length := by
      rcases Nat.lt_or_ge w.length a.length with h | h
      · exact h
      · exfalso
        have : (a ++ x ++ c)[w.length]? = some b := by rw [← e]; exact at_blank
        rw [List.append_assoc, List.getElem?_append_right h, List.getElem?_append_left (by omega)] at this
        exact hbx (List.mem_of_getElem? this)
    rw [List.append_assoc] at e
    rcases List.append_eq_append_iff.1 e with ⟨a', e1, e2⟩ | ⟨a', e1, e2⟩
    · cases a' with
      | nil => rw [List.append_nil] at e1; rw [e1] at ha; omega
      | cons y a' =>
        rw [List.cons_append] at e2
        injection e2 with e2 e3
        subst e2
        refine ⟨a', x, c, by rw [e3, List.append_assoc], h1, fun z hz => h2 z ?_, h3, i, ?_, hi, hpt⟩
        · rw [e1, List.getLast?_append, List.getLast?_cons, hz]; rfl
        · rw [e1, List.length_append, List.length_cons] at hp; omega
    · rw [e1, List.length_append] at ha; omega
  · rintro ⟨a, x, c, rfl, h1, h2, h3, i, rfl, hi, hpt⟩
    refine ⟨w ++ b :: a, x, c, by simp, h1, fun y hy => ?_, h3, i, ?_, hi, hpt⟩
    · cases ha : a.getLast? with
      | none =>
        rw [List.getLast?_eq_none_iff] at ha
        rw [ha] at hy
        simp at hy
        subst hy
        exact hb
      | some z =>
        rw [List.getLast?_append, List.getLast?_cons, ha] at hy
        cases hy
        exact h2 _ ha
    · simp; omega

/-! ## Punctuation -/

variable {cl : CharClasses}

theorem blank_not {k : CharClass} (hb : Blank cl b) (hk : k ≠ .space) : cl.has k b = false := by
  cases h : cl.has k b with
  | false => rfl
  | true => exact absurd (hb.only k h) hk

theorem before_left (hb : Blank cl b) {p : Nat} (hp : p < w.length) : BeforeWord cl (w ++ b :: v) p ↔ BeforeWord cl w p := by
  unfold BeforeWord
  constructor
  · rintro ⟨h1, k, c, h2, h3, h4, h5⟩
    have hk : k < w.length := by
      rcases Nat.lt_trichotomy k w.length with h | h | h
      · exact h
      · subst h
        rw [at_blank] at h3
        cases h3
        rw [blank_not hb (by decide), blank_not hb (by decide)] at h4
        simp at h4
      · have := h5 w.length b hp h at_blank
        rw [hb.space] at this
        cases this
    refine ⟨fun q c hq hc => h1 q c hq (by rw [at_left (by omega)]; exact hc), k, c, h2, by rw [← at_left hk]; exact h3, h4, ?_⟩
    intro j c' a e hc
    exact h5 j c' a e (by rw [at_left (by omega)]; exact hc)
  · rintro ⟨h1, k, c, h2, h3, h4, h5⟩
    have hk : k < w.length := (List.getElem?_eq_some_iff.1 h3).1
    refine ⟨fun q c hq hc => h1 q c hq (by rw [← at_left (by omega)]; exact hc), k, c, h2, by rw [at_left hk]; exact h3, h4, ?_⟩
    intro j c' a e hc
    exact h5 j c' a e (by rw [← at_left (by omega)]; exact hc)

theorem before_right (hb : Blank cl b) (j : Nat) : BeforeWord cl (w ++ b :: v) (w.length + 1 + j) ↔ BeforeWord cl v j := by
  unfold BeforeWord
  constructor
  · rintro ⟨h1, k, c, h2, h3, h4, h5⟩
    obtain ⟨k', rfl⟩ : ∃ k', k = w.length + 1 + k' := ⟨k - w.length - 1, by omega⟩
    refine ⟨fun q c hq hc => h1 (w.length + 1 + q) c (by omega) (by rw [at_right]; exact hc), k', c, by omega,
      by rw [← at_right]; exact h3, h4, fun i c' a e hc => h5 (w.length + 1 + i) c' (by omega) (by omega) (by rw [at_right]; exact hc)⟩
  · rintro ⟨h1, k, c, h2, h3, h4, h5⟩
    refine ⟨fun q c hq hc => ?_, w.length + 1 + k, c, by omega, by rw [at_right]; exact h3, h4, fun i c' a e hc => ?_⟩
    · cases j with
      | zero =>
        have : q = w.length := by omega
        subst this
        rw [at_blank] at hc
        cases hc
        exact blank_not hb (by decide)
      | succ j =>
        have : q = w.length + 1 + j := by omega
        subst this
        rw [at_right] at hc
        exact h1 j c rfl hc
    · obtain ⟨i', rfl⟩ : ∃ i', i = w.length + 1 + i' := ⟨i - w.length - 1, by omega⟩
      rw [at_right] at hc
      exact h5 i' c' (by omega) (by omega) hc

theorem afterWord_left (hb : Blank cl b) {p : Nat} (hp : p < w.length) : AfterWord cl (w ++ b :: v) p ↔ AfterWord cl w p := by
  unfold AfterWord
  constructor
  · rintro ⟨h1, k, c, h2, h3, h4, h5⟩
    refine ⟨fun c hc => h1 c ?_, k, c, h2, by rw [← at_left (by omega)]; exact h3, h4,
      fun j c' a e hc => h5 j c' a e (by rw [at_left (by omega)]; exact hc)⟩
    have := (List.getElem?_eq_some_iff.1 hc).1
    rw [at_left this]; exact hc
  · rintro ⟨h1, k, c, h2, h3, h4, h5⟩
    refine ⟨fun c hc => ?_, k, c, h2, by rw [at_left (by omega)]; exact h3, h4,
      fun j c' a e hc => h5 j c' a e (by rw [← at_left (by omega)]; exact hc)⟩
    by_cases h : p + 1 < w.length
    · rw [at_left h] at hc; exact h1 c hc
    · have : p + 1 = w.length := by omega
      rw [this, at_blank] at hc
      cases hc
      exact blank_not hb (by decide)

theorem afterWord_right (hb : Blank cl b) (j : Nat) : AfterWord cl (w ++ b :: v) (w.length + 1 + j) ↔ AfterWord cl v j := by
  unfold AfterWord
  constructor
  · rintro ⟨h1, k, c, h2, h3, h4, h5⟩
    have hk : w.length < k := by
      rcases Nat.lt_trichotomy k w.length with h | h | h
      · have := h5 w.length b h (by omega) at_blank
        rw [hb.space] at this
        cases this
      · subst h
        rw [at_blank] at h3
        cases h3
        rw [blank_not hb (by decide), blank_not hb (by decide)] at h4
        simp at h4
      · exact h
    obtain ⟨k', rfl⟩ : ∃ k', k = w.length + 1 + k' := ⟨k - w.length - 1, by omega⟩
    refine ⟨fun c hc => h1 c (by rw [Nat.add_assoc, at_right]; exact hc), k', c, by omega, by rw [← at_right]; exact h3, h4,
      fun i c' a e hc => h5 (w.length + 1 + i) c' (by omega) (by omega) (by rw [at_right]; exact hc)⟩
  · rintro ⟨h1, k, c, h2, h3, h4, h5⟩
    refine ⟨fun c hc => h1 c (by rw [Nat.add_assoc, at_right] at hc; exact hc), w.length + 1 + k, c, by omega,
      by rw [at_right]; exact h3, h4, fun i c' a e hc => ?_⟩
    obtain ⟨i', rfl⟩ : ∃ i', i = w.length + 1 + i' := ⟨i - w.length - 1, by omega⟩
    rw [at_right] at hc
    exact h5 i' c' (by omega) (by omega) hc

end

end Louis
