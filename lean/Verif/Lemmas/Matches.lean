import Verif.Spec.Matches
import Verif.Lemmas.Passes

/-!
# The matching machine and the interpreter of `match` patterns
-/

namespace Louis

open Regexp

variable {lower : Char → List Char} {env : Env} {atStart : Bool} {classes : CharClasses}

/-- Negated `n` times. -/
def negN : Nat → Regexp → Option Regexp
  | 0, r => some r
  | n + 1, r => (Regexp.negate r).bind (negN n)

/-- The regular expression reads as the function says. -/
structure Tracks (lower : Char → List Char) (env : Env) (atStart : Bool) (r : Regexp) (f : Place → List Place) : Prop where
  loops : SimpleLoops r
  reads : ∀ p : Place, prefs lower env atStart r p.st = (f p).map Place.st

theorem one_st (P : Char → Bool) (p : Place) : eat P p.st = (oneOf P p).map Place.st := by
  rw [eat_st]
  cases h : p.rest with
  | nil => simp [oneOf, h, runLength]
  | cons c cs => by_cases hc : P c = true <;> simp [oneOf, h, runLength, hc]

theorem often_st {f : St → List St} {g : Place → List Place} (h : ∀ p : Place, f p.st = (g p).map Place.st) :
    ∀ (k : Nat) (p : Place), starPrefs f k p.st = (oftenOf g k p).map Place.st
  | 0, p => rfl
  | k + 1, p => by
    simp only [starPrefs, oftenOf, h, List.map_append, List.map_cons, List.map_nil, List.flatMap_map, List.map_flatMap]
    congr 2
    funext q
    have e : q.st.rest.length < p.st.rest.length ↔ q.rest.length < p.rest.length := Iff.rfl
    by_cases hl : q.rest.length < p.rest.length
    · rw [if_pos (e.2 hl), if_pos hl]; exact often_st h k q
    · rw [if_neg (fun h => hl (e.1 h)), if_neg hl]; rfl

theorem matchAttributes_contains : ∀ {as : List Attr} {cs : List Char}, matchAttributes classes as = some cs →
    ∀ c, cs.contains c = ofAttrs classes as c
  | [], cs, h, c => by simp only [matchAttributes, Option.some.injEq] at h; subst h; rfl
  | .cls k :: as, cs, h, c => by
    simp only [matchAttributes, Option.map_eq_some_iff] at h
    obtain ⟨rest, h, rfl⟩ := h
    have := matchAttributes_contains h c
    rw [List.contains_append, this, contains_get]
    rfl
  | .any :: as, cs, h, c => by
    simp only [matchAttributes] at h
    rw [matchAttributes_contains h c]; rfl
  | .boundary :: as, cs, h, c => by simp [matchAttributes] at h
  | .byOrder _ :: as, cs, h, c => by simp [matchAttributes] at h

theorem boundary_start (p : Place) (b : Bool) :
    prefs lower env atStart (if b then .startAnchor else .notStartAnchor) p.st =
      (if atBoundary atStart .pre p = b then [p] else []).map Place.st := by
  cases b <;> simp only [Bool.false_eq_true, if_false, if_true, prefs, st_start, atBoundary] <;>
    (by_cases h : (atStart && p.read.isEmpty) = true <;> simp [h])

theorem boundary_end (p : Place) (b : Bool) :
    prefs lower env atStart (if b then .endAnchor else .notEndAnchor) p.st =
      (if atBoundary atStart .post p = b then [p] else []).map Place.st := by
  cases b <;> simp only [Bool.false_eq_true, if_false, if_true, prefs, atBoundary, Place.st] <;>
    (by_cases h : p.rest.isEmpty = true <;> simp [h, Place.st])

theorem negN_start (b : Bool) : ∀ n, negN n (if b then .startAnchor else .notStartAnchor) =
    some (if (decide (n % 2 = 0) == b) then .startAnchor else .notStartAnchor)
  | 0 => by cases b <;> rfl
  | n + 1 => by
    have : Regexp.negate (if b then .startAnchor else .notStartAnchor) = some (if !b then .startAnchor else .notStartAnchor) := by
      cases b <;> rfl
    rw [negN, this, Option.bind_some, negN_start (!b) n]
    congr 2
    by_cases h : n % 2 = 0
    · cases b <;> simp [h] <;> omega
    · cases b <;> simp [h] <;> omega

theorem negN_end (b : Bool) : ∀ n, negN n (if b then .endAnchor else .notEndAnchor) =
    some (if (decide (n % 2 = 0) == b) then .endAnchor else .notEndAnchor)
  | 0 => by cases b <;> rfl
  | n + 1 => by
    have : Regexp.negate (if b then .endAnchor else .notEndAnchor) = some (if !b then .endAnchor else .notEndAnchor) := by
      cases b <;> rfl
    rw [negN, this, Option.bind_some, negN_end (!b) n]
    congr 2
    by_cases h : n % 2 = 0
    · cases b <;> simp [h] <;> omega
    · cases b <;> simp [h] <;> omega

theorem negN_empty (b : Bool) : ∀ n, negN n (if b then .empty else .never) =
    some (if (decide (n % 2 = 0) == b) then .empty else .never)
  | 0 => by cases b <;> rfl
  | n + 1 => by
    have : Regexp.negate (if b then .empty else .never) = some (if !b then .empty else .never) := by
      cases b <;> rfl
    rw [negN, this, Option.bind_some, negN_empty (!b) n]
    congr 2
    by_cases h : n % 2 = 0
    · cases b <;> simp [h] <;> omega
    · cases b <;> simp [h] <;> omega

/-- A negation that goes through a unary operator. -/
theorem negN_through (op : Regexp → Regexp) (hop : ∀ r, Regexp.negate (op r) = (Regexp.negate r).map op) :
    ∀ (n : Nat) (r : Regexp), negN n (op r) = (negN n r).map op
  | 0, r => rfl
  | n + 1, r => by
    rw [negN, hop, negN]
    cases Regexp.negate r with
    | none => rfl
    | some r' => simp only [Option.map_some, Option.bind_some, negN_through op hop n r']

theorem negN_through₂ (op : Regexp → Regexp → Regexp)
    (hop : ∀ l r, Regexp.negate (op l r) = (Regexp.negate l).bind fun l' => (Regexp.negate r).map (op l')) :
    ∀ (n : Nat) (l r : Regexp), negN n (op l r) = (negN n l).bind fun l' => (negN n r).map (op l')
  | 0, l, r => rfl
  | n + 1, l, r => by
    rw [negN, hop, negN, negN]
    cases Regexp.negate l with
    | none => rfl
    | some l' =>
      cases Regexp.negate r with
      | none => cases h : negN n l' <;> simp [h]
      | some r' => simp only [Option.map_some, Option.bind_some, negN_through₂ op hop n l' r']

theorem negN_concat (n : Nat) (l r : Regexp) : negN n (.concat l r) = (negN n l).bind fun l' => (negN n r).map (.concat l') :=
  negN_through₂ .concat (fun l r => by
    show (Regexp.negate l).bind _ = _
    cases Regexp.negate l <;> cases h : Regexp.negate r <;> simp [h]) n l r

theorem negN_either (n : Nat) (l r : Regexp) : negN n (.either l r) = (negN n l).bind fun l' => (negN n r).map (.either l') :=
  negN_through₂ .either (fun l r => by
    show (Regexp.negate l).bind _ = _
    cases Regexp.negate l <;> cases h : Regexp.negate r <;> simp [h]) n l r

theorem negN_cls (cs : List Char) {n : Nat} {r : Regexp} (h : negN n (.cls cs) = some r) :
    r = (if n = 0 then .cls cs else .notCls cs) := by
  match n with
  | 0 => simpa [negN] using h.symm
  | 1 => simpa [negN, Regexp.negate] using h.symm
  | n + 2 => simp [negN, Regexp.negate] at h

theorem follows_cls {cs : List Char} {n : Nat} {r : Regexp} (h : negN n (.cls cs) = some r) {P : Char → Bool}
    (hP : ∀ c, cs.contains c = P c) :
    Tracks lower env atStart r (oneOf fun c => P c == decide (n = 0)) := by
  rw [negN_cls cs h]
  clear h
  by_cases hn : n = 0
  · rw [if_pos hn]
    refine ⟨trivial, fun p => ?_⟩
    simp only [prefs, one_st]
    congr 2
    funext c
    rw [hP]; simp [hn]
  · rw [if_neg hn]
    refine ⟨trivial, fun p => ?_⟩
    simp only [prefs, one_st]
    congr 2
    funext c
    rw [hP]; cases P c <;> simp [hn]

theorem cls_advances {cs : List Char} {n : Nat} {r : Regexp} (h : negN n (.cls cs) = some r) : nullable r = false := by
  rw [negN_cls cs h]; split <;> rfl

theorem follows_boundary (side : Side) {n : Nat} {r : Regexp} (h : negN n (boundaryAnchor side) = some r) :
    Tracks lower env atStart r fun p => if atBoundary atStart side p = decide (n % 2 = 0) then [p] else [] := by
  cases side with
  | pre =>
    have := negN_start true n
    simp only [if_true, beq_true] at this
    rw [boundaryAnchor, this, Option.some.injEq] at h
    subst h
    exact ⟨by split <;> trivial, fun p => boundary_start p _⟩
  | post =>
    have := negN_end true n
    simp only [if_true, beq_true] at this
    rw [boundaryAnchor, this, Option.some.injEq] at h
    subst h
    exact ⟨by split <;> trivial, fun p => boundary_end p _⟩

theorem Tracks.either {l r : Regexp} {f g : Place → List Place} (hl : Tracks lower env atStart l f)
    (hr : Tracks lower env atStart r g) : Tracks lower env atStart (.either l r) fun p => f p ++ g p :=
  ⟨⟨hl.loops, hr.loops⟩, fun p => by simp only [prefs, hl.reads, hr.reads, List.map_append]⟩

theorem Tracks.concat {l r : Regexp} {f g : Place → List Place} (hl : Tracks lower env atStart l f)
    (hr : Tracks lower env atStart r g) : Tracks lower env atStart (.concat l r) fun p => (f p).flatMap g :=
  ⟨⟨hl.loops, hr.loops⟩, fun p => by
    simp only [prefs, hl.reads, List.flatMap_map, List.map_flatMap]
    congr 1
    funext q
    exact hr.reads q⟩

theorem Tracks.congr {r : Regexp} {f g : Place → List Place} (h : Tracks lower env atStart r f) (e : ∀ p, f p = g p) :
    Tracks lower env atStart r g := ⟨h.loops, fun p => by rw [h.reads, e]⟩

theorem rest_negN : ∀ (qs : List Pattern) {n : Nat} {r : Regexp} (acc : Regexp),
    (fromPatternsRest classes acc qs).bind (negN n) = some r → ∃ acc', negN n acc = some acc'
  | [], n, r, acc, h => by rw [fromPatternsRest, Option.bind_some] at h; exact ⟨_, h⟩
  | q :: qs, n, r, acc, h => by
    rw [fromPatternsRest, Option.bind_assoc, Option.bind_eq_some_iff] at h
    obtain ⟨x, hx, h⟩ := h
    obtain ⟨c, hc⟩ := rest_negN qs _ h
    rw [negN_concat, Option.bind_eq_some_iff] at hc
    obtain ⟨a, ha, -⟩ := hc
    exact ⟨a, ha⟩

mutual
/-- What compiles to `r` behind `n` negations reads as the interpreter says; it reads something if the interpreter says so. -/
theorem pattern_follows : ∀ (q : Pattern) (n : Nat) (r : Regexp), (fromPattern classes q).bind (negN n) = some r →
    q.PlainLoops n → Tracks lower env atStart r (patternReadings classes atStart n q) ∧
      (q.advances n = true → nullable r = false)
  | .empty, n, r, h, _ => by
    have := negN_empty true n
    simp only [if_true, beq_true] at this
    rw [fromPattern, Option.bind_some, this, Option.some.injEq] at h
    subst h
    refine ⟨⟨by split <;> trivial, fun p => ?_⟩, by simp [Pattern.advances]⟩
    simp only [patternReadings]
    by_cases h : n % 2 = 0 <;> simp [h, prefs]
  | .characters s, n, r, h, _ => by
    rw [fromPattern, Option.bind_some] at h
    have hr : r = (if n = 0 then .string s else .notString s) := by
      match n, h with
      | 0, h => simpa [negN] using h.symm
      | 1, h => simpa [negN, Regexp.negate] using h.symm
      | n + 2, h => simp [negN, Regexp.negate] at h
    subst hr
    refine ⟨⟨by split <;> trivial, fun p => ?_⟩, fun ha => ?_⟩
    · simp only [patternReadings]
      by_cases h : n = 0
      · simp only [h, if_true, prefs, eatAll_string]
        split <;> rfl
      · simp only [h, if_false, prefs, eatAll_differs]
        split <;> rfl
    · simp only [Pattern.advances, Bool.not_eq_true'] at ha
      split <;> simpa [nullable] using ha
  | .boundary side, n, r, h, _ => by
    rw [fromPattern, Option.bind_some] at h
    exact ⟨(follows_boundary side h).congr fun p => by simp only [patternReadings], by simp [Pattern.advances]⟩
  | .any, n, r, h, _ => by
    rw [fromPattern, Option.bind_some] at h
    match n, h with
    | 0, h =>
      simp only [negN, Option.some.injEq] at h
      subst h
      exact ⟨⟨trivial, fun p => by simp only [prefs, one_st, patternReadings, if_true]⟩, fun _ => rfl⟩
    | n + 1, h =>
      have := negN_empty false n
      simp only [Bool.false_eq_true, if_false, beq_false] at this
      simp only [negN, Regexp.negate, Option.bind_some, this, Option.some.injEq] at h
      subst h
      refine ⟨⟨by split <;> trivial, fun p => ?_⟩, by simp [Pattern.advances]⟩
      simp only [patternReadings, Nat.add_one_ne_zero, if_false]
      by_cases h : n % 2 = 0
      · have : (n + 1) % 2 ≠ 0 := by omega
        simp [h, this, prefs]
      · have : (n + 1) % 2 = 0 := by omega
        simp [h, this, prefs]
  | .set cs, n, r, h, _ => by
    rw [fromPattern, Option.bind_some] at h
    exact ⟨(follows_cls h fun c => rfl).congr fun p => by simp only [patternReadings], fun _ => cls_advances h⟩
  | .attributes as, n, r, h, _ => by
    rw [fromPattern, Option.bind_eq_some_iff] at h
    obtain ⟨r', h1, h⟩ := h
    obtain ⟨cs, hcs, rfl⟩ := Option.map_eq_some_iff.1 h1
    exact ⟨(follows_cls h (matchAttributes_contains hcs)).congr fun p => by simp only [patternReadings], fun _ => cls_advances h⟩
  | .attributesOrBoundary as side, n, r, h, _ => by
    rw [fromPattern, Option.bind_eq_some_iff] at h
    obtain ⟨r', h1, h⟩ := h
    obtain ⟨cs, hcs, rfl⟩ := Option.map_eq_some_iff.1 h1
    rw [negN_either] at h
    simp only [Option.bind_eq_some_iff, Option.map_eq_some_iff] at h
    obtain ⟨a, ha, b, hb, rfl⟩ := h
    refine ⟨((follows_cls ha (matchAttributes_contains hcs)).either (follows_boundary side hb)).congr fun p => ?_,
      by simp [Pattern.advances]⟩
    simp only [patternReadings]
    congr 2
    have hn : n = 0 ∨ n = 1 := by
      match n, ha with
      | 0, _ => exact .inl rfl
      | 1, _ => exact .inr rfl
      | n + 2, ha => simp [negN, Regexp.negate] at ha
    rcases hn with rfl | rfl <;> rfl
  | .group ps, n, r, h, hl => by
    rw [fromPattern, Option.bind_eq_some_iff] at h
    obtain ⟨r', h1, h⟩ := h
    obtain ⟨r'', hr'', rfl⟩ := Option.map_eq_some_iff.1 h1
    rw [negN_through .group (fun r => by show (Regexp.negate r).bind _ = _; cases Regexp.negate r <;> rfl)] at h
    obtain ⟨r₃, h2, rfl⟩ := Option.map_eq_some_iff.1 h
    simp only [Pattern.PlainLoops] at hl
    obtain ⟨h3, h4⟩ := patterns_follow ps n r₃ (by rw [hr'']; exact h2) hl
    exact ⟨⟨h3.loops, fun p => by simp only [prefs, h3.reads, patternReadings]⟩, by
      simpa only [Pattern.advances, nullable] using h4⟩
  | .negate q, n, r, h, hl => by
    rw [fromPattern, Option.bind_assoc] at h
    simp only [Pattern.PlainLoops] at hl
    obtain ⟨h3, h4⟩ := pattern_follows q (n + 1) r h hl
    exact ⟨h3.congr fun p => by simp only [patternReadings], by simpa only [Pattern.advances] using h4⟩
  | .optional q, n, r, h, hl => by
    rw [fromPattern, Option.bind_eq_some_iff] at h
    obtain ⟨r', h1, h⟩ := h
    obtain ⟨r'', hr'', rfl⟩ := Option.map_eq_some_iff.1 h1
    rw [negN_through .optional (fun r => by show (Regexp.negate r).bind _ = _; cases Regexp.negate r <;> rfl)] at h
    obtain ⟨r₃, h2, rfl⟩ := Option.map_eq_some_iff.1 h
    simp only [Pattern.PlainLoops] at hl
    obtain ⟨h3, -⟩ := pattern_follows q n r₃ (by rw [hr'']; exact h2) hl
    exact ⟨⟨h3.loops, fun p => by simp [prefs, h3.reads, patternReadings]⟩, by simp [Pattern.advances]⟩
  | .zeroOrMore q, n, r, h, hl => by
    rw [fromPattern, Option.bind_eq_some_iff] at h
    obtain ⟨r', h1, h⟩ := h
    obtain ⟨r'', hr'', rfl⟩ := Option.map_eq_some_iff.1 h1
    rw [negN_through .zeroOrMore (fun r => by show (Regexp.negate r).bind _ = _; cases Regexp.negate r <;> rfl)] at h
    obtain ⟨r₃, h2, rfl⟩ := Option.map_eq_some_iff.1 h
    simp only [Pattern.PlainLoops] at hl
    obtain ⟨h3, h4⟩ := pattern_follows q n r₃ (by rw [hr'']; exact h2) hl.2
    refine ⟨⟨⟨h4 hl.1, h3.loops⟩, fun p => ?_⟩, by simp [Pattern.advances]⟩
    simp only [prefs, patternReadings]
    exact often_st h3.reads _ p
  | .oneOrMore q, n, r, h, hl => by
    rw [fromPattern, Option.bind_eq_some_iff] at h
    obtain ⟨r', h1, h⟩ := h
    obtain ⟨r'', hr'', rfl⟩ := Option.map_eq_some_iff.1 h1
    rw [negN_through .oneOrMore (fun r => by show (Regexp.negate r).bind _ = _; cases Regexp.negate r <;> rfl)] at h
    obtain ⟨r₃, h2, rfl⟩ := Option.map_eq_some_iff.1 h
    simp only [Pattern.PlainLoops] at hl
    obtain ⟨h3, h4⟩ := pattern_follows q n r₃ (by rw [hr'']; exact h2) hl.2
    refine ⟨⟨⟨h4 hl.1, h3.loops⟩, fun p => ?_⟩, by simpa only [Pattern.advances, nullable] using h4⟩
    simp only [prefs, patternReadings, h3.reads, List.flatMap_map, List.map_flatMap]
    congr 1
    funext p'
    exact often_st h3.reads _ p'
  | .either l r', n, r, h, hl => by
    rw [fromPattern, Option.bind_eq_some_iff] at h
    obtain ⟨r₀, h1, h⟩ := h
    simp only [Option.bind_eq_some_iff, Option.map_eq_some_iff] at h1
    obtain ⟨a, ha, b, hb, rfl⟩ := h1
    rw [negN_either] at h
    simp only [Option.bind_eq_some_iff, Option.map_eq_some_iff] at h
    obtain ⟨a', ha', b', hb', rfl⟩ := h
    simp only [Pattern.PlainLoops] at hl
    obtain ⟨h1, h2⟩ := patterns_follow l n a' (by rw [ha]; exact ha') hl.1
    obtain ⟨h3, h4⟩ := patterns_follow r' n b' (by rw [hb]; exact hb') hl.2
    refine ⟨(h1.either h3).congr fun p => by simp only [patternReadings], fun hadv => ?_⟩
    simp only [Pattern.advances, Bool.and_eq_true] at hadv
    simp only [nullable, h2 hadv.1, h4 hadv.2, Bool.or_false]
theorem patterns_follow : ∀ (qs : List Pattern) (n : Nat) (r : Regexp), (fromPatterns classes qs).bind (negN n) = some r →
    PlainLoopsAll n qs → Tracks lower env atStart r (patternsReadings classes atStart n qs) ∧
      (advancesAny n qs = true → nullable r = false)
  | [], n, r, h, _ => by simp [fromPatterns] at h
  | q :: qs, n, r, h, hl => by
    rw [fromPatterns, Option.bind_assoc, Option.bind_eq_some_iff] at h
    obtain ⟨x, hx, h⟩ := h
    simp only [PlainLoopsAll] at hl
    obtain ⟨x', hx'⟩ := rest_negN qs x h
    obtain ⟨h1, h2⟩ := pattern_follows q n x' (by rw [hx]; exact hx') hl.1
    obtain ⟨h3, h4⟩ := patternsRest_follow qs n x x' r _ hx' h1 h hl.2
    refine ⟨h3.congr fun p => by simp only [patternsReadings], fun ha => ?_⟩
    simp only [advancesAny, Bool.or_eq_true] at ha
    rcases ha with ha | ha
    · exact h4 (.inl (h2 ha))
    · exact h4 (.inr ha)
theorem patternsRest_follow : ∀ (qs : List Pattern) (n : Nat) (acc acc' r : Regexp) (f : Place → List Place),
    negN n acc = some acc' → Tracks lower env atStart acc' f → (fromPatternsRest classes acc qs).bind (negN n) = some r →
    PlainLoopsAll n qs → Tracks lower env atStart r (fun p => (f p).flatMap (patternsReadings classes atStart n qs)) ∧
      (nullable acc' = false ∨ advancesAny n qs = true → nullable r = false)
  | [], n, acc, acc', r, f, ha, hf, h, _ => by
    rw [fromPatternsRest, Option.bind_some, ha, Option.some.injEq] at h
    subst h
    refine ⟨hf.congr fun p => ?_, fun h => ?_⟩
    · induction f p with
      | nil => rfl
      | cons a l ih => rw [List.flatMap_cons, ← ih]; simp [patternsReadings]
    · rcases h with h | h
      · exact h
      · simp [advancesAny] at h
  | q :: qs, n, acc, acc', r, f, ha, hf, h, hl => by
    rw [fromPatternsRest, Option.bind_assoc, Option.bind_eq_some_iff] at h
    obtain ⟨x, hx, h⟩ := h
    simp only [PlainLoopsAll] at hl
    obtain ⟨c, hc⟩ := rest_negN qs _ h
    rw [negN_concat, ha, Option.bind_some, Option.map_eq_some_iff] at hc
    obtain ⟨x', hx', rfl⟩ := hc
    obtain ⟨h1, h2⟩ := pattern_follows q n x' (by rw [hx]; exact hx') hl.1
    obtain ⟨h3, h4⟩ := patternsRest_follow qs n (.concat acc x) (.concat acc' x') r _
      (by rw [negN_concat, ha, Option.bind_some, hx']; rfl) (hf.concat h1) h hl.2
    refine ⟨h3.congr fun p => ?_, fun hor => h4 ?_⟩
    · rw [List.flatMap_assoc]
      simp only [patternsReadings]
    · simp only [advancesAny, Bool.or_eq_true] at hor
      simp only [nullable, Bool.and_eq_false_iff]
      rcases hor with h | h | h
      · exact .inl (.inl h)
      · exact .inl (.inr (h2 h))
      · exact .inr h
end

end Louis
