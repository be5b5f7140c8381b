import Verif.Lemmas.Matches
import Verif.Props.Passes

/-!
# C53: what a `match` line does at a place, exactly
-/

namespace Louis

open Regexp (findAnchored St prefs SimpleLoops utf8Len sliceBytes takeBytes dropBytes)

variable {classes : CharClasses} {env : Env} {atStart : Bool} {lower : Char → List Char}

/-- From `p` to `q` only reading has gone on: the brackets are where they were. -/
structure Along (p q : Place) : Prop where
  text : q.read ++ q.rest = p.read ++ p.rest
  more : p.read <+: q.read
  opened : q.opened = p.opened
  closed : q.closed = p.closed

theorem Along.refl (p : Place) : Along p p := ⟨rfl, List.prefix_refl _, rfl, rfl⟩

theorem Along.after (p : Place) (n : Nat) : Along p (p.after n) :=
  ⟨by simp [Place.after], List.prefix_append .., rfl, rfl⟩

theorem Along.trans {p q r : Place} (h : Along p q) (h' : Along q r) : Along p r :=
  ⟨h'.text.trans h.text, h.more.trans h'.more, h'.opened.trans h.opened, h'.closed.trans h.closed⟩

theorem along_ite {c : Prop} [Decidable c] {p q x : Place} (h : q ∈ (if c then [x] else [])) (hx : Along p x) : Along p q := by
  split at h
  · rw [List.mem_singleton.1 h]; exact hx
  · cases h

theorem along_oneOf {has : Char → Bool} {p q : Place} (h : q ∈ oneOf has p) : Along p q := by
  unfold oneOf at h
  split at h
  · cases h
  · exact along_ite h (.after p 1)

theorem along_often {body : Place → List Place} (hb : ∀ p q, q ∈ body p → Along p q) :
    ∀ (k : Nat) (p q : Place), q ∈ oftenOf body k p → Along p q
  | 0, p, q, h => by rw [oftenOf, List.mem_singleton] at h; rw [h]; exact .refl p
  | k + 1, p, q, h => by
    simp only [oftenOf, List.mem_append, List.mem_flatMap, List.mem_singleton] at h
    rcases h with ⟨u, hu, h⟩ | rfl
    · split at h
      · exact (hb p u hu).trans (along_often hb k u q h)
      · cases h
    · exact .refl _

mutual
theorem along_pattern : ∀ (t : Pattern) (n : Nat) (p q : Place), q ∈ patternReadings classes atStart n t p → Along p q
  | .empty, n, p, q, h => by simp only [patternReadings] at h; exact along_ite h (.refl p)
  | .characters s, n, p, q, h => by simp only [patternReadings] at h; exact along_ite h (.after p _)
  | .boundary side, n, p, q, h => by simp only [patternReadings] at h; exact along_ite h (.refl p)
  | .any, n, p, q, h => by
    simp only [patternReadings] at h
    split at h
    · exact along_oneOf h
    · exact along_ite h (.refl p)
  | .set _, n, p, q, h => by simp only [patternReadings] at h; exact along_oneOf h
  | .attributes _, n, p, q, h => by simp only [patternReadings] at h; exact along_oneOf h
  | .attributesOrBoundary _ _, n, p, q, h => by
    simp only [patternReadings, List.mem_append] at h
    rcases h with h | h
    · exact along_oneOf h
    · exact along_ite h (.refl p)
  | .group ps, n, p, q, h => by simp only [patternReadings] at h; exact along_patterns ps n p q h
  | .negate t, n, p, q, h => by simp only [patternReadings] at h; exact along_pattern t (n + 1) p q h
  | .optional t, n, p, q, h => by
    simp only [patternReadings, List.mem_append, List.mem_singleton] at h
    rcases h with h | rfl
    · exact along_pattern t n p q h
    · exact .refl _
  | .zeroOrMore t, n, p, q, h => by
    simp only [patternReadings] at h
    exact along_often (along_pattern t n) _ p q h
  | .oneOrMore t, n, p, q, h => by
    simp only [patternReadings, List.mem_flatMap] at h
    obtain ⟨u, hu, h⟩ := h
    exact (along_pattern t n p u hu).trans (along_often (along_pattern t n) _ u q h)
  | .either l r, n, p, q, h => by
    simp only [patternReadings, List.mem_append] at h
    rcases h with h | h
    · exact along_patterns l n p q h
    · exact along_patterns r n p q h
theorem along_patterns : ∀ (ts : List Pattern) (n : Nat) (p q : Place), q ∈ patternsReadings classes atStart n ts p → Along p q
  | [], n, p, q, h => by simp only [patternsReadings, List.mem_singleton] at h; rw [h]; exact .refl p
  | t :: ts, n, p, q, h => by
    simp only [patternsReadings, List.mem_flatMap] at h
    obtain ⟨u, hu, h⟩ := h
    exact (along_pattern t n p u hu).trans (along_patterns ts n u q h)
end

theorem spelt_length : ∀ {s t : Text}, spelt lower s t = true → s.length ≤ t.length
  | [], t, _ => by simp
  | _ :: _, [], h => by simp [spelt] at h
  | e :: es, c :: cs, h => by
    simp only [spelt, Bool.and_eq_true] at h
    simpa using spelt_length h.2

theorem spelt_take : ∀ {s t : Text}, spelt lower s t = true → Spells lower (t.take s.length) s
  | [], t, _ => by simpa using Spells.nil
  | _ :: _, [], h => by simp [spelt] at h
  | e :: es, c :: cs, h => by
    simp only [spelt, Bool.and_eq_true, beq_iff_eq] at h
    exact .cons h.1 (spelt_take h.2)

theorem eatAll_spelt (p : Place) : ∀ (s : Text), Regexp.eatAll (fun e c => lower c == [e]) s p.st =
    if spelt lower s p.rest then [(p.after s.length).st] else [] := by
  intro s
  induction s generalizing p with
  | nil => simp [Regexp.eatAll, Place.after_zero, spelt]
  | cons e es ih =>
    simp only [Regexp.eatAll, eat_st]
    cases hr : p.rest with
    | nil => simp [runLength, spelt]
    | cons c cs =>
      have h2 : (p.after 1).rest = cs := by simp [Place.after, hr]
      by_cases h : lower c = [e]
      · simp [runLength, spelt, h, ih, h2, Place.after_after, Nat.add_comm]
      · simp [runLength, spelt, h]

/-- What a `match` line reads: three stretches of the text, of which the second one spells its characters. -/
theorem matchReadings_split {pre : List Pattern} {chars : Text} {post : List Pattern} {input : Text} {q : Place}
    (h : q ∈ matchReadings classes lower atStart pre chars post input) :
    ∃ x y z, q.opened = x ∧ q.closed = x ++ y ∧ q.read = x ++ y ++ z ∧ input = x ++ y ++ z ++ q.rest ∧ Spells lower y chars := by
  simp only [matchReadings, List.mem_flatMap] at h
  obtain ⟨u, ⟨v, hv, hu⟩, hq⟩ := h
  have h1 := along_patterns pre 0 _ v hv
  have h3 := along_patterns post 0 u q hq
  split at hu
  · next hs =>
    rw [List.mem_singleton] at hu
    subst hu
    obtain ⟨z, hz⟩ := h3.more
    refine ⟨v.read, v.rest.take chars.length, z, h3.opened, h3.closed, by rw [← hz]; rfl, ?_, spelt_take hs⟩
    have e1 := h1.text
    have e3 := h3.text
    rw [← hz] at e3
    simp only [List.nil_append] at e1
    rw [← e1]
    simp only [Place.closing, Place.after, Place.opening, List.append_assoc, List.take_append_drop] at e3
    simp only [List.append_assoc]
    exact e3.symm
  · cases hu

theorem matchStretch_split {pre : List Pattern} {chars : Text} {post : List Pattern} {input x y z : Text}
    (h : matchStretch classes lower atStart pre chars post input = some ⟨x, y, z⟩) :
    (∃ rest, input = x ++ y ++ z ++ rest) ∧ Spells lower y chars := by
  simp only [matchStretch, Option.map_eq_some_iff] at h
  obtain ⟨q, hq, he⟩ := h
  obtain ⟨x', y', z', h1, h2, h3, h4, h5⟩ := matchReadings_split (List.mem_of_head? hq)
  simp only [h1, h2, h3, List.drop_left, Extent.mk.injEq] at he
  obtain ⟨rfl, rfl, rfl⟩ := he
  exact ⟨⟨_, h4⟩, h5⟩

/-- **C53.** What a `match` line does where its reading starts, when nothing that may read no character is repeated by `*` or
`+`.  Its operands read the text in the preferred way, if at all: every pattern after the other, alternatives from left to
right, repetitions as often as possible, and otherwise only if the rest cannot be read else.  The line then replaces the
characters in the middle, and weighs as much as all it has read. -/
theorem C53_match_exact (classes : CharClasses) (pre : List Pattern) (chars : Text) (post : List Pattern) (to : Text)
    (origin : Origin) (p : Regexp.Compiled Translation) (hc : compileMatch classes pre chars post to origin = some p)
    (hpre : PlainLoopsAll 0 pre) (hpost : PlainLoopsAll 0 post)
    (lower : Char → List Char) (input : Text) (env : Env) (atStart : Bool) :
    match matchStretch classes lower atStart pre chars post input with
    | none => findAnchored p lower input env atStart = .ok none
    | some ⟨x, y, z⟩ => ∃ f, findAnchored p lower input env atStart = .ok (some f) ∧
        f.payload.resolve f.capture f.length f.offset =
          { input := chars, output := to, length := chars.length, weight := (x ++ y ++ z).length, offset := x.length,
            prec := .default, stage := .main, effects := [], origin := some origin } := by
  simp only [compileMatch, fromMatchRule, Option.map_eq_some_iff, Option.bind_eq_some_iff] at hc
  obtain ⟨_, ⟨a, ha, b, hb, rfl⟩, rfl⟩ := hc
  obtain ⟨da, -⟩ := patterns_follow (lower := lower) (env := env) (atStart := atStart) pre 0 a (by rw [ha]; rfl) hpre
  obtain ⟨db, -⟩ := patterns_follow (lower := lower) (env := env) (atStart := atStart) post 0 b (by rw [hb]; rfl) hpost
  have dm : Tracks lower env atStart (.capture (.ciString chars)) fun p =>
      if spelt lower chars p.rest then [(p.opening.after chars.length).closing] else [] := by
    refine ⟨trivial, fun p => ?_⟩
    simp only [prefs]
    rw [show ({ p.st with cap := (p.st.sp, 0) } : St) = p.opening.st from rfl, eatAll_spelt]
    have e : p.opening.rest = p.rest := rfl
    rw [e]
    by_cases h : spelt lower chars p.rest = true
    · rw [if_pos h, if_pos h]; rfl
    · rw [if_neg h, if_neg h]; rfl
  have d := (da.concat dm).concat db
  have hp0 := d.reads ⟨[], input, [], []⟩
  rw [show (⟨[], input, [], []⟩ : Place).st = St.init input from rfl] at hp0
  have h3 := Regexp.C03_leftmost_first_partial _ d.loops
    (Translation.resolved (Resolved.new chars to 0 .main (some origin))) lower input env atStart
  rw [hp0, List.head?_map] at h3
  change match (Option.map Place.st (matchReadings classes lower atStart pre chars post input).head?) with
    | none => _
    | some best => _ at h3
  cases hf : (matchReadings classes lower atStart pre chars post input).head? with
  | none =>
    simp only [matchStretch, hf, Option.map_none]
    rw [hf] at h3
    exact h3
  | some q =>
    obtain ⟨x, y, z, e1, e2, e3, e4, -⟩ := matchReadings_split (List.mem_of_head? hf)
    simp only [matchStretch, hf, Option.map_some, e1, e2, e3, List.drop_left]
    rw [hf] at h3
    obtain ⟨f, hfa, g1, g2, g3⟩ := h3
    obtain ⟨res, e', -, hsd⟩ := Regexp.findAnchored_spec (.concat (.concat a (.capture (.ciString chars))) b)
      (Translation.resolved (Resolved.new chars to 0 .main (some origin))) lower input env atStart
    rw [hfa] at e'
    cases e'
    obtain ⟨_, _, _, _, _, _, _, _, _, _, hpay⟩ := hsd f rfl
    refine ⟨f, hfa, ?_⟩
    have c1 : q.st.cap.1 = utf8Len x := by simp [Place.st, e1]
    rw [c1, e4, show x ++ y ++ z ++ q.rest = x ++ (y ++ z ++ q.rest) by simp, Regexp.takeBytes_append] at g3
    have hoff : f.offset = x.length := by simpa using g3.symm
    have hlen : f.length = (x ++ y ++ z).length := by
      rw [e4] at g1
      simp only [Place.st, List.length_append] at g1 ⊢
      omega
    rw [hpay, hoff, hlen]
    rfl

/-! ## Examples -/

example : PlainLoopsAll 0 [.zeroOrMore (.set ['a', 'x']), .oneOrMore (.negate (.group [.characters ['x', 'y'], .any]))] := by
  simp [PlainLoopsAll, Pattern.PlainLoops, Pattern.advances, advancesAny]

example : matchStretch [] (fun c => [c]) true [.zeroOrMore (.set ['a', 'x'])] ['a', 'b'] [.negate (.characters ['c', 'd'])]
    "xaabdcd".toList = some ⟨"xa".toList, "ab".toList, "dc".toList⟩ := by decide +kernel

end Louis
