import Verif.Lemmas.DecEq

/-!
# C32: parsing a table is all-or-nothing, with exact line numbers

The small specification: a text is cut into lines at line feeds (`C32_lines_cut`, `C32_last_line`), the lines are numbered
from one, blank lines and comments are skipped (`C32_rule_line`).
-/

namespace Louis

/-- A line without the carriage return that may end it. -/
def chomp (l : Text) : Text := if l.getLast? = some '\r' then l.dropLast else l

theorem lines_cr_nl (rest : Text) : lines ('\r' :: '\n' :: rest) = [] :: lines rest := by
  rw [lines.eq_def]; simp [lines]

/-- C32: a line ends at a line feed; a carriage return before it is dropped. -/
theorem C32_lines_cut (l rest : Text) (h : '\n' ∉ l) : lines (l ++ '\n' :: rest) = chomp l :: lines rest := by
  induction l with
  | nil => simp [lines, chomp]
  | cons c l ih =>
    have hc : c ≠ '\n' := fun e => h (by simp [e])
    have hl : '\n' ∉ l := fun e => h (by simp [e])
    have ih := ih hl
    rw [List.cons_append, lines.eq_def]
    split
    · rename_i heq; cases heq
    · rename_i heq; cases heq; exact absurd rfl hc
    · rename_i c' s hne heq
      cases heq
      split
      · rename_i hcr
        rw [ih]
        rcases hcr with ⟨rfl, hd⟩
        cases l with
        | nil => simp [chomp]
        | cons d l =>
          simp only [List.cons_append, List.head?_cons, Option.some.injEq] at hd
          exact absurd (by simp [hd]) hl
      · rename_i hcr
        rw [ih]
        simp only [chomp]
        cases l with
        | nil =>
          have : c ≠ '\r' := fun e => hcr ⟨e, by simp⟩
          simp [this]
        | cons d l =>
          simp only [List.getLast?_cons_cons]
          split <;> simp [List.dropLast]

/-- C32: what follows the last line feed is a line of its own, if it is not empty. -/
theorem C32_last_line (l : Text) (h : '\n' ∉ l) : lines l = if l = [] then [] else [l] := by
  induction l with
  | nil => simp [lines]
  | cons c l ih =>
    have hc : c ≠ '\n' := fun e => h (by simp [e])
    have hl : '\n' ∉ l := fun e => h (by simp [e])
    rw [lines.eq_def]
    split
    · rename_i heq; cases heq
    · rename_i heq; cases heq; exact absurd rfl hc
    · rename_i heq
      cases heq
      have : ¬ (c = '\r' ∧ l.head? = some '\n') := by
        rintro ⟨_, hd⟩
        exact hl (List.mem_of_mem_head? hd)
      rw [if_neg this, ih hl]
      by_cases hl0 : l = [] <;> simp [hl0]

/-- C32: a line is looked at iff its first character that is not white space exists and is not `#`. -/
theorem C32_rule_line (l : Text) :
    isRuleLine l = true ↔ ∃ w c r, l = w ++ c :: r ∧ (∀ x ∈ w, isWs x = true) ∧ isWs c = false ∧ c ≠ '#' := by
  induction l with
  | nil => simp [isRuleLine]
  | cons a l ih =>
    by_cases ha : isWs a = true
    · have : isRuleLine (a :: l) = isRuleLine l := by simp [isRuleLine, ha]
      rw [this, ih]
      constructor
      · rintro ⟨w, c, r, rfl, hw, hc⟩
        exact ⟨a :: w, c, r, rfl, by simpa [ha] using hw, hc⟩
      · rintro ⟨w, c, r, e, hw, hc, hh⟩
        cases w with
        | nil => simp only [List.nil_append, List.cons.injEq] at e; rw [e.1] at ha; simp [ha] at hc
        | cons x w =>
          simp only [List.cons_append, List.cons.injEq] at e
          exact ⟨w, c, r, e.2, fun y hy => hw y (by simp [hy]), hc, hh⟩
    · simp only [Bool.not_eq_true] at ha
      have : isRuleLine (a :: l) = (a != '#') := by simp [isRuleLine, ha]
      rw [this]
      constructor
      · intro h
        exact ⟨[], a, l, rfl, by simp, ha, by simpa using h⟩
      · rintro ⟨w, c, r, e, hw, hc, hh⟩
        cases w with
        | nil => simp only [List.nil_append, List.cons.injEq] at e; simpa [e.1] using hh
        | cons x w =>
          simp only [List.cons_append, List.cons.injEq] at e
          have := hw x (by simp)
          rw [← e.1, ha] at this
          cases this

/-! ## Reading the lines -/

/-- The lines that are looked at, with their numbers, counted from one. -/
def numberedRuleLines (text : Text) : List (Nat × Text) :=
  ((lines text).zipIdx.filter (fun l => isRuleLine l.1)).map fun l => (l.2 + 1, l.1)

/-- Line `n` of the text, counted from one, is `l`, and is looked at, iff it is listed. -/
theorem mem_numberedRuleLines (text : Text) (n : Nat) (l : Text) :
    (n, l) ∈ numberedRuleLines text ↔ 0 < n ∧ (lines text)[n - 1]? = some l ∧ isRuleLine l = true := by
  simp only [numberedRuleLines, List.mem_map, List.mem_filter, Prod.exists, Prod.mk.injEq, List.mem_zipIdx_iff_getElem?]
  constructor
  · rintro ⟨a, b, ⟨h1, h2⟩, rfl, rfl⟩
    exact ⟨Nat.succ_pos _, by simpa using h1, h2⟩
  · rintro ⟨h0, h1, h2⟩
    exact ⟨l, n - 1, ⟨h1, h2⟩, by omega, rfl⟩

def resultOf {ε α : Type} : Except ε α → Option α
  | .ok a => some a
  | .error _ => none

def errorOf {ε α : Type} : Except ε α → Option ε
  | .ok _ => none
  | .error e => some e

theorem allOrErrors_eq {ε α : Type} (rs : List (Except ε α)) :
    allOrErrors rs = if rs.filterMap errorOf = [] then .ok (rs.filterMap resultOf) else .error (rs.filterMap errorOf) := by
  induction rs with
  | nil => simp [allOrErrors]
  | cons r rs ih =>
    simp only [allOrErrors, ih]
    cases r with
    | ok a => by_cases h : rs.filterMap errorOf = [] <;> simp [List.filterMap_cons, errorOf, resultOf, h]
    | error e => by_cases h : rs.filterMap errorOf = [] <;> simp [List.filterMap_cons, errorOf, resultOf, h]

/-- The outcome of one numbered line. -/
def readLine (path : Option Text) (nl : Nat × Text) : Except Loc (Rule × Loc) :=
  match parseLine nl.2 with
  | some rule => .ok (rule, ⟨path, nl.1⟩)
  | none => .error ⟨path, nl.1⟩

theorem parseTable_eq (text : Text) (path : Option Text) :
    parseTable text path = allOrErrors ((numberedRuleLines text).map (readLine path)) := by
  simp only [parseTable, numberedRuleLines, List.map_map]
  rfl

theorem resultOf_readLine (path : Option Text) (nl : Nat × Text) :
    resultOf (readLine path nl) = (parseLine nl.2).map fun r => (r, ⟨path, nl.1⟩) := by
  simp only [readLine]; cases parseLine nl.2 <;> rfl

theorem errorOf_readLine (path : Option Text) (nl : Nat × Text) :
    errorOf (readLine path nl) = if (parseLine nl.2).isNone then some ⟨path, nl.1⟩ else none := by
  simp only [readLine]; cases parseLine nl.2 <;> rfl

theorem errors_eq (path : Option Text) (xs : List (Nat × Text)) :
    (xs.map (readLine path)).filterMap errorOf =
      (xs.filter fun nl => (parseLine nl.2).isNone).map fun nl => (⟨path, nl.1⟩ : Loc) := by
  induction xs with
  | nil => rfl
  | cons a xs ih =>
    simp only [List.map_cons, List.filterMap_cons, errorOf_readLine, List.filter_cons, ih]
    by_cases h : (parseLine a.2).isNone = true <;> simp [h]

theorem rules_eq (path : Option Text) (xs : List (Nat × Text)) :
    (xs.map (readLine path)).filterMap resultOf = xs.filterMap fun nl => (parseLine nl.2).map fun r => (r, ⟨path, nl.1⟩) := by
  rw [List.filterMap_map]
  congr 1
  funext nl
  exact resultOf_readLine path nl

theorem errors_nil_iff (path : Option Text) (xs : List (Nat × Text)) :
    ((xs.filter fun nl => (parseLine nl.2).isNone).map fun nl => (⟨path, nl.1⟩ : Loc)) = [] ↔
      ∀ n l, (n, l) ∈ xs → (parseLine l).isSome = true := by
  rw [List.map_eq_nil_iff, List.filter_eq_nil_iff]
  constructor
  · intro h n l hm
    have := h (n, l) hm
    cases hp : parseLine l with
    | none => simp [hp] at this
    | some r => rfl
  · intro h a hm
    have := h a.1 a.2 hm
    cases hp : parseLine a.2 with
    | none => simp [hp] at this
    | some r => simp

/-- C32: the table is accepted iff every line that is looked at parses; then the rules are those of the lines, in their
order, each with the number of its line. -/
theorem C32_accepted_iff (text : Text) (path : Option Text) (rules : List (Rule × Loc)) :
    parseTable text path = .ok rules ↔
      (∀ n l, (n, l) ∈ numberedRuleLines text → (parseLine l).isSome = true) ∧
      rules = (numberedRuleLines text).filterMap fun nl => (parseLine nl.2).map fun r => (r, ⟨path, nl.1⟩) := by
  rw [parseTable_eq, allOrErrors_eq, errors_eq, rules_eq, ← errors_nil_iff path]
  split
  · rename_i h
    constructor
    · intro e; cases e; exact ⟨h, rfl⟩
    · rintro ⟨_, rfl⟩; rfl
  · rename_i h
    constructor
    · intro e; cases e
    · rintro ⟨h', _⟩; exact absurd h' h

/-- C32: otherwise exactly the lines that do not parse are reported, each with its number, in their order. -/
theorem C32_rejected_iff (text : Text) (path : Option Text) (errors : List Loc) :
    parseTable text path = .error errors ↔
      (∃ n l, (n, l) ∈ numberedRuleLines text ∧ parseLine l = none) ∧
      errors = ((numberedRuleLines text).filter fun nl => (parseLine nl.2).isNone).map fun nl => ⟨path, nl.1⟩ := by
  have hex : (∃ n l, (n, l) ∈ numberedRuleLines text ∧ parseLine l = none) ↔
      ¬ (((numberedRuleLines text).filter fun nl => (parseLine nl.2).isNone).map fun nl => (⟨path, nl.1⟩ : Loc)) = [] := by
    rw [errors_nil_iff]
    constructor
    · rintro ⟨n, l, hm, hp⟩ h
      have := h n l hm
      rw [hp] at this
      cases this
    · intro h
      apply Classical.byContradiction
      intro hne
      apply h
      intro n l hm
      cases hp : parseLine l with
      | none => exact absurd ⟨n, l, hm, hp⟩ hne
      | some r => rfl
  rw [parseTable_eq, allOrErrors_eq, errors_eq, hex]
  split
  · rename_i h; simp [h]
  · rename_i h
    constructor
    · intro e; cases e; exact ⟨h, rfl⟩
    · rintro ⟨_, rfl⟩; rfl

/-- C32: line `n` is reported iff it exists, is looked at, and does not parse. -/
theorem C32_reported_lines (text : Text) (path : Option Text) (errors : List Loc) (h : parseTable text path = .error errors)
    (n : Nat) : (⟨path, n⟩ : Loc) ∈ errors ↔
      0 < n ∧ ∃ l, (lines text)[n - 1]? = some l ∧ isRuleLine l = true ∧ parseLine l = none := by
  rw [((C32_rejected_iff _ _ _).mp h).2]
  simp only [List.mem_map, List.mem_filter, Prod.exists, mem_numberedRuleLines, Loc.mk.injEq, true_and,
    Option.isNone_iff_eq_none]
  constructor
  · rintro ⟨a, b, ⟨⟨h1, h2, h3⟩, h4⟩, rfl⟩
    exact ⟨h1, b, h2, h3, h4⟩
  · rintro ⟨h1, b, h2, h3, h4⟩
    exact ⟨n, b, ⟨⟨h1, h2, h3⟩, h4⟩, rfl⟩

theorem numberedRuleLines_sorted (text : Text) : (numberedRuleLines text).Pairwise fun a b => a.1 < b.1 := by
  have hz : ∀ (l : List Text) (k : Nat), (l.zipIdx k).Pairwise fun a b => a.2 < b.2 := by
    intro l
    induction l with
    | nil => intro k; simp
    | cons a l ih =>
      intro k
      rw [List.zipIdx_cons, List.pairwise_cons]
      refine ⟨?_, ih _⟩
      intro b hb
      have := List.le_snd_of_mem_zipIdx hb
      omega
  simp only [numberedRuleLines, List.pairwise_map]
  refine List.Pairwise.filter _ ?_
  exact (hz _ _).imp fun h => Nat.succ_lt_succ h

/-- C32: rules and errors come in the order of their lines, at most one for each line. -/
theorem C32_in_line_order (text : Text) (path : Option Text) :
    (∀ rules, parseTable text path = .ok rules → rules.Pairwise fun a b => a.2.line < b.2.line) ∧
    (∀ errors, parseTable text path = .error errors → errors.Pairwise fun a b => a.line < b.line) := by
  constructor
  · intro rules h
    rw [((C32_accepted_iff _ _ _).mp h).2, List.pairwise_filterMap]
    refine (numberedRuleLines_sorted text).imp ?_
    intro a b hab r hr r' hr'
    simp only [Option.map_eq_some_iff] at hr hr'
    obtain ⟨_, _, rfl⟩ := hr
    obtain ⟨_, _, rfl⟩ := hr'
    exact hab
  · intro errors h
    rw [((C32_rejected_iff _ _ _).mp h).2, List.pairwise_map]
    exact ((numberedRuleLines_sorted text).filter _).imp id

/-- C32: blank lines and comments never matter: dropping them changes neither the rules nor their order, only line numbers. -/
theorem C32_rules_of_lines (text : Text) (path : Option Text) (rules : List (Rule × Loc))
    (h : parseTable text path = .ok rules) :
    rules.map (fun r => some r.1) = ((lines text).filter isRuleLine).map parseLine := by
  obtain ⟨hall, rfl⟩ := (C32_accepted_iff _ _ _).mp h
  have h1 : ((lines text).filter isRuleLine) = (numberedRuleLines text).map (·.2) := by
    have : ∀ (l : List Text) (k : Nat), l.filter isRuleLine =
        (((l.zipIdx k).filter (fun l => isRuleLine l.1)).map fun l => (l.2 + 1, l.1)).map (·.2) := by
      intro l
      induction l with
      | nil => intro k; simp
      | cons a l ih =>
        intro k
        simp only [List.zipIdx_cons, List.filter_cons]
        split
        · simp only [List.map_cons]; rw [ih (k + 1)]
        · exact ih (k + 1)
    exact this _ _
  rw [h1, List.map_map]
  clear h h1
  generalize numberedRuleLines text = xs at hall ⊢
  induction xs with
  | nil => rfl
  | cons a xs ih =>
    have ha := hall a.1 a.2 (by simp)
    obtain ⟨r, hr⟩ := Option.isSome_iff_exists.mp ha
    simp only [List.filterMap_cons, List.map_cons, hr, Option.map_some, Function.comp]
    rw [ih fun n l hm => hall n l (by simp [hm])]

/-- The hypotheses are met: a table with two wrong lines among comments and blank lines, and one that is accepted. -/
example : parseTable "# x\nalways abc 1\n\nalwys x 1\r\n  # y\nletter\n".toList none = .error [⟨none, 4⟩, ⟨none, 6⟩] := by
  decide +kernel

example : parseTable "# x\nletter a 1\r\n\n  always ab 12 trailing words\n".toList none =
    .ok [(.charDef .letter 'a' [[.d1]] RuleCons.none, ⟨none, 2⟩),
      (.text .always ['a', 'b'] (.explicit [[.d1, .d2]]) RuleCons.none [], ⟨none, 4⟩)] := by
  decide +kernel

end Louis
