import Verif.Model.MatchPattern
import Verif.Props.Regexp
import Verif.Spec.Trie

namespace Louis

open Regexp (Regexp RangeFree CaptureFree findAnchored Found)

theorem negate_free : ∀ {r r' : Regexp}, RangeFree r → CaptureFree r → Regexp.negate r = some r' → RangeFree r' ∧ CaptureFree r' := by
  intro r
  induction r with
  | literal c => intro r' _ _ h; simp [Regexp.negate] at h
  | concat a b iha ihb | either a b iha ihb =>
    intro r' h1 h2 h
    simp only [Regexp.negate, bind, Option.bind_eq_some_iff, pure, Option.some.injEq] at h
    obtain ⟨x, hx, y, hy, rfl⟩ := h
    obtain ⟨p1, p2⟩ := iha h1.1 h2.1 hx
    obtain ⟨q1, q2⟩ := ihb h1.2 h2.2 hy
    exact ⟨⟨p1, q1⟩, ⟨p2, q2⟩⟩
  | optional a ih | zeroOrMore a ih | oneOrMore a ih | group a ih =>
    intro r' h1 h2 h
    simp only [Regexp.negate, bind, Option.bind_eq_some_iff, pure, Option.some.injEq] at h
    obtain ⟨x, hx, rfl⟩ := h
    have := ih h1 h2 hx
    exact ⟨this.1, this.2⟩
  | repeatExactly n a ih | repeatAtLeast n a ih =>
    intro r' h1 h2 h
    simp only [Regexp.negate, bind, Option.bind_eq_some_iff, pure, Option.some.injEq] at h
    obtain ⟨x, hx, rfl⟩ := h
    have := ih h1 h2 hx
    exact ⟨this.1, this.2⟩
  | repeatAtLeastAtMost n m a ih => intro r' h1; exact h1.elim
  | capture a => intro r' _ h; exact h.elim
  | _ => intro r' _ _ h; simp [Regexp.negate] at h <;> subst h <;> exact ⟨trivial, trivial⟩

theorem boundaryAnchor_free (s : Side) : RangeFree (boundaryAnchor s) ∧ CaptureFree (boundaryAnchor s) := by
  cases s <;> exact ⟨trivial, trivial⟩

mutual
theorem fromPattern_free {ctx : CharClasses} : ∀ (p : Pattern) (r : Regexp), fromPattern ctx p = some r → RangeFree r ∧ CaptureFree r
  | .empty, r, h => by cases h; exact ⟨trivial, trivial⟩
  | .characters s, r, h => by cases h; exact ⟨trivial, trivial⟩
  | .boundary side, r, h => by cases h; exact boundaryAnchor_free side
  | .any, r, h => by cases h; exact ⟨trivial, trivial⟩
  | .set cs, r, h => by cases h; exact ⟨trivial, trivial⟩
  | .attributes as, r, h => by
    simp only [fromPattern, Option.map_eq_some_iff] at h
    obtain ⟨cs, -, rfl⟩ := h
    exact ⟨trivial, trivial⟩
  | .attributesOrBoundary as side, r, h => by
    simp only [fromPattern, Option.map_eq_some_iff] at h
    obtain ⟨cs, -, rfl⟩ := h
    have := boundaryAnchor_free side
    exact ⟨⟨trivial, this.1⟩, ⟨trivial, this.2⟩⟩
  | .group ps, r, h => by
    simp only [fromPattern, Option.map_eq_some_iff] at h
    obtain ⟨x, hx, rfl⟩ := h
    exact fromPatterns_free ps x hx
  | .negate p, r, h => by
    simp only [fromPattern, Option.bind_eq_some_iff] at h
    obtain ⟨x, hx, h⟩ := h
    have := fromPattern_free p x hx
    exact negate_free this.1 this.2 h
  | .optional p, r, h => by
    simp only [fromPattern, Option.map_eq_some_iff] at h
    obtain ⟨x, hx, rfl⟩ := h
    exact fromPattern_free p x hx
  | .zeroOrMore p, r, h => by
    simp only [fromPattern, Option.map_eq_some_iff] at h
    obtain ⟨x, hx, rfl⟩ := h
    exact fromPattern_free p x hx
  | .oneOrMore p, r, h => by
    simp only [fromPattern, Option.map_eq_some_iff] at h
    obtain ⟨x, hx, rfl⟩ := h
    exact fromPattern_free p x hx
  | .either a b, r, h => by
    simp only [fromPattern, Option.bind_eq_some_iff, Option.map_eq_some_iff] at h
    obtain ⟨x, hx, y, hy, rfl⟩ := h
    have h1 := fromPatterns_free a x hx
    have h2 := fromPatterns_free b y hy
    exact ⟨⟨h1.1, h2.1⟩, ⟨h1.2, h2.2⟩⟩
theorem fromPatterns_free {ctx : CharClasses} : ∀ (ps : List Pattern) (r : Regexp), fromPatterns ctx ps = some r → RangeFree r ∧ CaptureFree r
  | [], r, h => by simp [fromPatterns] at h
  | p :: ps, r, h => by
    simp only [fromPatterns, Option.bind_eq_some_iff] at h
    obtain ⟨x, hx, h⟩ := h
    exact fromPatternsRest_free ps x r (fromPattern_free p x hx) h
theorem fromPatternsRest_free {ctx : CharClasses} : ∀ (ps : List Pattern) (acc r : Regexp), RangeFree acc ∧ CaptureFree acc →
    fromPatternsRest ctx acc ps = some r → RangeFree r ∧ CaptureFree r
  | [], acc, r, hacc, h => by simp only [fromPatternsRest, Option.some.injEq] at h; subst h; exact hacc
  | p :: ps, acc, r, hacc, h => by
    simp only [fromPatternsRest, Option.bind_eq_some_iff] at h
    obtain ⟨x, hx, h⟩ := h
    have h1 := fromPattern_free p x hx
    exact fromPatternsRest_free ps (.concat acc x) r ⟨⟨hacc.1, h1.1⟩, ⟨hacc.2, h1.2⟩⟩ h
end

theorem eatsAll_spells {lower : Char → List Char} : ∀ {cs : Text} {s s' : Regexp.St},
    Regexp.EatsAll (fun e c => lower c = [e]) cs s s' → ∃ mid, s.rest = mid ++ s'.rest ∧ Spells lower mid cs
  | [], s, s', h => by
    simp only [Regexp.EatsAll] at h
    subst h
    exact ⟨[], rfl, .nil⟩
  | e :: es, s, s', h => by
    obtain ⟨t, ⟨c, tl, h1, h2, rfl⟩, h3⟩ := h
    obtain ⟨mid, h4, h5⟩ := eatsAll_spells h3
    refine ⟨c :: mid, ?_, .cons h2 h5⟩
    rw [h1]
    simpa [Regexp.St.adv] using h4

theorem spells_length {lower : Char → List Char} : ∀ {a b : Text}, Spells lower a b → a.length = b.length := by
  intro a b h
  induction h with
  | nil => rfl
  | cons _ _ ih => simp [ih]

/-- A match of a `match` rule: its characters are spelled right after the text matched by the pre-pattern. -/
theorem matchRule_found {ctx : CharClasses} {pre post : List Pattern} {chars to : Text} {origin : Origin} {p : Regexp.Compiled Translation}
    (hp : compileMatch ctx pre chars post to origin = some p) {lower : Char → List Char} {input : Text} {env : Env}
    {atStart : Bool} {f : Found Translation} (h : findAnchored p lower input env atStart = .ok (some f)) :
    f.payload = .resolved (Resolved.new chars to 0 .main (some origin)) ∧
    ∃ before after, input = before ++ f.capture ++ after ∧ f.offset = before.length ∧ f.length ≤ input.length ∧
      Spells lower f.capture chars := by
  simp only [compileMatch, fromMatchRule, Option.map_eq_some_iff, Option.bind_eq_some_iff] at hp
  obtain ⟨_, ⟨a, ha, b, hb, rfl⟩, rfl⟩ := hp
  have fa := fromPatterns_free pre a ha
  have fb := fromPatterns_free post b hb
  obtain ⟨s1, s2, s3, after, -, h2, -, h4, h5, h6, h7⟩ := Regexp.C04_capture_matches_group a (.ciString chars) b fa.1 trivial fb.1
    trivial fb.2 _ lower input env atStart f h
  obtain ⟨before, after', rest, e1, e2, e3⟩ := Regexp.C04_capture_is_slice _ _ lower input env atStart f h
  obtain ⟨mid, h8, h9⟩ := eatsAll_spells h2
  simp only at h8
  rw [h4] at h8
  have : f.capture = mid := List.append_cancel_right h8
  obtain ⟨res, e, -, hs⟩ := Regexp.findAnchored_spec _ _ lower input env atStart
  rw [h] at e
  cases e
  obtain ⟨_, _, _, _, _, _, _, _, _, _, hpay⟩ := hs f rfl
  refine ⟨hpay, before, after' ++ rest, by rw [e1]; simp, e2, ?_, by rw [this]; exact h9⟩
  rw [e3, e1]
  simp

end Louis
