import Verif.Props.Includes

/-!
# A table is read through the tokens of its lines
-/

namespace Louis

/-- What is read of a line. -/
def lineContent (l : Text) : List (List Text) := if isRuleLine l then [tokens l] else []

/-- What is read of a text. -/
def content (text : Text) : List (List Text) := ((lines text).filter isRuleLine).map tokens

/-- The rules of what is read. -/
def rulesIn (c : List (List Text)) : Option (List Rule) := allSome (fun ts => (pRule ts).map (·.1)) c

theorem content_eq (text : Text) : content text = (lines text).flatMap lineContent := by
  rw [content]
  induction lines text with
  | nil => rfl
  | cons l ls ih => by_cases h : isRuleLine l = true <;> simp [lineContent, h, ih]

theorem allSome_append {α β : Type} (f : α → Option β) (a b : List α) :
    allSome f (a ++ b) = (allSome f a).bind fun x => (allSome f b).map (x ++ ·) := by
  induction a with
  | nil => simp [allSome]
  | cons x a ih =>
    simp only [List.cons_append, allSome]
    cases f x with
    | none => rfl
    | some y => rw [ih]; cases allSome f a <;> cases allSome f b <;> simp

theorem allSome_some_iff {α β : Type} (f : α → Option β) (a : List α) (b : List β) :
    allSome f a = some b ↔ a.map f = b.map some := by
  induction a generalizing b with
  | nil => cases b <;> simp [allSome]
  | cons x a ih =>
    simp only [allSome, List.map_cons]
    cases f x with
    | none => cases b <;> simp
    | some y =>
      cases b with
      | nil => simp
      | cons z b => simp [← ih]; exact And.comm

/-- A table is read through its content. -/
theorem parseTable_content (text : Text) (path : Option Text) :
    (resultOf (parseTable text path)).map (·.map (·.1)) = rulesIn (content text) := by
  cases h : parseTable text path with
  | ok rules =>
    simp only [resultOf, Option.map_some]
    refine ((allSome_some_iff _ _ _).mpr ?_).symm
    have := C32_rules_of_lines _ _ _ h
    rw [List.map_map]
    rw [show (some ∘ fun x : Rule × Loc => x.1) = fun r => some r.1 from rfl, this, content, List.map_map]
    rfl
  | error es =>
    simp only [resultOf, Option.map_none]
    symm
    cases hc : rulesIn (content text) with
    | none => rfl
    | some rs =>
      exfalso
      have hc := (allSome_some_iff _ _ _).mp hc
      rw [content, List.map_map] at hc
      have hall : ∀ n l, (n, l) ∈ numberedRuleLines text → (parseLine l).isSome = true := by
        intro n l hm
        obtain ⟨_, h1, h2⟩ := (mem_numberedRuleLines _ _ _).mp hm
        have : parseLine l ∈ ((lines text).filter isRuleLine).map ((fun ts => (pRule ts).map (·.1)) ∘ tokens) :=
          List.mem_map.mpr ⟨l, List.mem_filter.mpr ⟨List.mem_of_getElem? h1, h2⟩, rfl⟩
        rw [hc] at this
        obtain ⟨r, _, e⟩ := List.mem_map.mp this
        rw [← e]; rfl
      rw [(C32_accepted_iff text path _).mpr ⟨hall, rfl⟩] at h
      cases h

/-! ## The content of pieces -/

theorem isAsciiWs_isWs {c : Char} (h : isAsciiWs c = true) : isWs c = true := by
  simp only [isAsciiWs, Bool.or_eq_true, beq_iff_eq] at h
  rcases h with (((h | h) | h) | h) | h <;> subst h <;> decide

theorem isRuleLine_cons_ws {c : Char} (h : isWs c = true) (l : Text) : isRuleLine (c :: l) = isRuleLine l := by
  simp [isRuleLine, h]

theorem isRuleLine_cons {c : Char} (h : isWs c = false) (l : Text) : isRuleLine (c :: l) = (c != '#') := by
  simp [isRuleLine, h]

/-- Blanks inside a line. -/
theorem isRuleLine_blanks (l w r : Text) (hw : ∀ c ∈ w, isAsciiWs c = true) : isRuleLine (l ++ (w ++ r)) = isRuleLine (l ++ r) := by
  induction l with
  | nil =>
    induction w with
    | nil => rfl
    | cons c w ih =>
      simp only [List.nil_append, List.cons_append] at ih ⊢
      rw [isRuleLine_cons_ws (isAsciiWs_isWs (hw c (by simp))), ih fun c hc => hw c (by simp [hc])]
  | cons a l ih =>
    simp only [List.cons_append]
    by_cases ha : isWs a = true
    · rw [isRuleLine_cons_ws ha, isRuleLine_cons_ws ha, ih]
    · simp only [Bool.not_eq_true] at ha
      rw [isRuleLine_cons ha, isRuleLine_cons ha]

theorem tokensFrom_blanks (w r : Text) (hw : ∀ c ∈ w, isAsciiWs c = true) : tokensFrom [] (w ++ r) = tokensFrom [] r := by
  induction w with
  | nil => rfl
  | cons c w ih =>
    simp only [List.cons_append, tokensFrom, hw c (by simp), if_true]
    exact ih fun c hc => hw c (by simp [hc])

theorem tokensFrom_blanks_ne (t w r : Text) (hne : w ≠ []) (hw : ∀ c ∈ w, isAsciiWs c = true) :
    tokensFrom t (w ++ r) = (if t = [] then [] else [t]) ++ tokensFrom [] r := by
  cases w with
  | nil => exact absurd rfl hne
  | cons c w =>
    simp only [List.cons_append, tokensFrom, hw c (by simp), if_true]
    rw [tokensFrom_blanks w r fun c hc => hw c (by simp [hc])]
    by_cases ht : t = [] <;> simp [ht]

theorem tokensFrom_prefix (l : Text) : ∀ (t : Text) (x y : Text), (∀ t, tokensFrom t x = tokensFrom t y) →
    tokensFrom t (l ++ x) = tokensFrom t (l ++ y) := by
  induction l with
  | nil => intro t x y h; exact h t
  | cons c l ih =>
    intro t x y h
    simp only [List.cons_append, tokensFrom]
    split
    · split <;> rw [ih [] x y h]
    · exact ih _ x y h

theorem lineContent_congr {l l' : Text} (h : isRuleLine l = isRuleLine l') (ht : tokens l = tokens l') :
    lineContent l = lineContent l' := by
  simp only [lineContent, h, ht]

theorem lineContent_blanks (l w w' r : Text) (hne : w ≠ []) (hw : ∀ c ∈ w, isAsciiWs c = true) (hne' : w' ≠ [])
    (hw' : ∀ c ∈ w', isAsciiWs c = true) : lineContent (l ++ (w ++ r)) = lineContent (l ++ (w' ++ r)) := by
  refine lineContent_congr ?_ ?_
  · rw [isRuleLine_blanks l w r hw, isRuleLine_blanks l w' r hw']
  · exact tokensFrom_prefix l [] _ _ fun t => by
      rw [tokensFrom_blanks_ne t w r hne hw, tokensFrom_blanks_ne t w' r hne' hw']

theorem lineContent_indent (w r : Text) (hw : ∀ c ∈ w, isAsciiWs c = true) : lineContent (w ++ r) = lineContent r :=
  lineContent_congr (isRuleLine_blanks [] w r hw) (tokensFrom_blanks w r hw)

theorem lineContent_trailing (l w : Text) (hw : ∀ c ∈ w, isAsciiWs c = true) : lineContent (l ++ w) = lineContent l := by
  refine lineContent_congr ?_ ?_
  · have := isRuleLine_blanks l w [] hw
    simpa using this
  · have := tokensFrom_prefix l [] (w ++ []) [] fun t => by
      cases w with
      | nil => rfl
      | cons c w =>
        rw [tokensFrom_blanks_ne t _ [] (by simp) hw]
        simp [tokensFrom]
    simpa [tokens] using this

theorem lineContent_chomp (l : Text) : lineContent (chomp l) = lineContent l := by
  rw [chomp]
  split
  · rename_i h
    obtain ⟨u, rfl⟩ := List.getLast?_eq_some_iff.mp h
    rw [List.dropLast_concat, lineContent_trailing u ['\r'] (by simp [isAsciiWs])]
  · rfl

theorem content_line (l rest : Text) (h : '\n' ∉ l) : content (l ++ '\n' :: rest) = lineContent l ++ content rest := by
  rw [content_eq, content_eq, C32_lines_cut l rest h, List.flatMap_cons, lineContent_chomp]

theorem content_last (l : Text) (h : '\n' ∉ l) : content l = lineContent l := by
  rw [content_eq, C32_last_line l h]
  by_cases hl : l = []
  · subst hl; rfl
  · simp [hl]

/-- The first line of a text, and the rest. -/
theorem first_line (x : Text) : '\n' ∉ x ∨ ∃ l rest, x = l ++ '\n' :: rest ∧ '\n' ∉ l := by
  induction x with
  | nil => exact .inl (by simp)
  | cons c x ih =>
    by_cases hc : c = '\n'
    · exact .inr ⟨[], x, by rw [hc]; rfl, by simp⟩
    · rcases ih with h | ⟨l, rest, rfl, h⟩
      · exact .inl (by simp [h, Ne.symm hc])
      · exact .inr ⟨c :: l, rest, rfl, by simp [h, Ne.symm hc]⟩

/-- A text that ends with a line feed is read on its own. -/
theorem content_append : ∀ (a x : Text), content (a ++ '\n' :: x) = content a ++ content x := by
  intro a
  induction hn : a.length using Nat.strongRecOn generalizing a with
  | ind n ih =>
    intro x
    rcases first_line a with h | ⟨l, rest, rfl, h⟩
    · rw [content_line a x h, content_last a h]
    · rw [List.append_assoc, List.cons_append, content_line l _ h, content_line l _ h,
        ih rest.length (by rw [← hn]; simp; omega) rest rfl x, List.append_assoc]

end Louis
