import Verif.Spec.Layout
import Verif.Lemmas.Content
import Verif.Props.Demo
import Verif.Lemmas.DecEq

/-!
# C79: the layout of a table does not matter
-/

namespace Louis

theorem IsBlank.ws {c : Char} (h : IsBlank c) : isAsciiWs c = true := by
  rcases h with rfl | rfl | rfl | rfl <;> rfl

theorem IsBlank.ne {c : Char} (h : IsBlank c) : c ≠ '\n' := by
  rcases h with rfl | rfl | rfl | rfl <;> decide

/-- The last line of a text. -/
theorem last_line (a : Text) : ∃ a0 l, a = a0 ++ l ∧ '\n' ∉ l ∧ AtLineStart a0 := by
  induction hn : a.length using Nat.strongRecOn generalizing a with
  | ind n ih =>
    rcases first_line a with h | ⟨l, rest, rfl, h⟩
    · exact ⟨[], a, rfl, h, .inl rfl⟩
    · obtain ⟨a0, l', rfl, hl, hs⟩ := ih rest.length (by rw [← hn]; simp; omega) rest rfl
      refine ⟨l ++ '\n' :: a0, l', by simp, hl, .inr ?_⟩
      rcases hs with rfl | ⟨b, rfl⟩
      · exact ⟨l, rfl⟩
      · exact ⟨l ++ '\n' :: b, by simp⟩

theorem rest_of_line (b : Text) : ∃ r b0, b = r ++ b0 ∧ '\n' ∉ r ∧ AtLineEnd b0 := by
  rcases first_line b with h | ⟨l, rest, rfl, h⟩
  · exact ⟨b, [], by simp, h, .inl rfl⟩
  · exact ⟨l, _, rfl, h, .inr ⟨rest, rfl⟩⟩

theorem content_after {a : Text} (ha : AtLineStart a) (x : Text) : content (a ++ x) = content a ++ content x := by
  rcases ha with rfl | ⟨b, rfl⟩
  · rfl
  · rw [List.append_assoc, List.singleton_append, content_append, content_append]
    simp [content, lines]

theorem content_before {l b : Text} (hl : '\n' ∉ l) (hb : AtLineEnd b) : content (l ++ b) = lineContent l ++ content b := by
  rcases hb with rfl | ⟨b, rfl⟩
  · rw [List.append_nil, content_last l hl]
    simp [content, lines]
  · rw [content_line l b hl]
    congr 1

theorem lineContent_remark {l : Text} (h : IsRemark l) : lineContent l = [] := by
  obtain ⟨hnl, w, r, rfl, hw, hr⟩ := h
  clear hnl
  rw [lineContent, if_neg]
  intro hx
  obtain ⟨w', c, r', e, hw', hc, hne⟩ := (C32_rule_line _).mp hx
  clear hx
  induction w generalizing w' with
  | nil =>
    rcases hr with rfl | ⟨r'', rfl⟩
    · cases w' <;> cases e
    · cases w' with
      | nil => cases e; exact hne rfl
      | cons x w' =>
        simp only [List.nil_append, List.cons_append, List.cons.injEq] at e
        have := hw' x (by simp)
        rw [← e.1] at this
        revert this; decide
  | cons x w ih =>
    cases w' with
    | nil =>
      simp only [List.nil_append, List.cons_append, List.cons.injEq] at e
      have := hw x (by simp)
      rw [e.1, hc] at this; cases this
    | cons y w' =>
      simp only [List.cons_append, List.cons.injEq] at e
      exact ih (fun c hc => hw c (by simp [hc])) w' e.2 fun c hc => hw' c (by simp [hc])

theorem nl_not_mem {w : Text} (hw : ∀ c ∈ w, IsBlank c) : '\n' ∉ w := fun h => (hw _ h).ne rfl

/-- The layout does not change what is read. -/
theorem Relayout.content {t t' : Text} (h : Relayout t t') : content t = content t' := by
  induction h with
  | blanks a w w' b hw hw' =>
    obtain ⟨a0, l, rfl, hl, hs⟩ := last_line a
    obtain ⟨r, b0, rfl, hr, he⟩ := rest_of_line b
    have e : ∀ w, (∀ c ∈ w, IsBlank c) →
        Louis.content (a0 ++ l ++ w ++ (r ++ b0)) = Louis.content a0 ++ (lineContent (l ++ (w ++ r)) ++ Louis.content b0) := by
      intro w hw
      rw [show a0 ++ l ++ w ++ (r ++ b0) = a0 ++ ((l ++ (w ++ r)) ++ b0) by simp, content_after hs,
        content_before (by simp [hl, hr, nl_not_mem hw]) he]
    rw [e w hw.2, e w' hw'.2, lineContent_blanks l w w' r hw.1 (fun c hc => (hw.2 c hc).ws) hw'.1 fun c hc => (hw'.2 c hc).ws]
  | indent a w b ha hw =>
    obtain ⟨r, b0, rfl, hr, he⟩ := rest_of_line b
    rw [show a ++ w ++ (r ++ b0) = a ++ ((w ++ r) ++ b0) by simp, content_after ha, content_after ha, content_before hr he,
      content_before (by simp [hr, nl_not_mem hw]) he, lineContent_indent w r fun c hc => (hw c hc).ws]
  | trailing a w b hb hw =>
    obtain ⟨a0, l, rfl, hl, hs⟩ := last_line a
    rw [show a0 ++ l ++ w ++ b = a0 ++ ((l ++ w) ++ b) by simp, List.append_assoc, content_after hs, content_after hs,
      content_before hl hb, content_before (by simp [hl, nl_not_mem hw]) hb,
      lineContent_trailing l w fun c hc => (hw c hc).ws]
  | remark a line b ha hl =>
    rw [List.append_assoc, content_after ha, content_after ha, content_line line b hl.1, lineContent_remark hl, List.nil_append]
  | newline a =>
    rw [content_append]
    simp [Louis.content, lines]
  | same => rfl
  | back _ ih => exact ih.symm
  | more _ _ ih ih' => exact ih.trans ih'

/-- The rules that were read, without their places. -/
def readRules {ε : Type} (e : Except ε (List (Rule × Loc))) : Option (List Rule) := (resultOf e).map (·.map (·.1))

theorem readRules_cases {ε : Type} {e e' : Except ε (List (Rule × Loc))} (h : readRules e = readRules e') :
    (∃ rs rs', e = .ok rs ∧ e' = .ok rs' ∧ rs.map (·.1) = rs'.map (·.1)) ∨ ∃ x x', e = .error x ∧ e' = .error x' := by
  cases e <;> cases e' <;> simp_all [readRules, resultOf]

/-- **C79.** Tables that differ in their layout only are the same translator, or are rejected for the same reason. -/
theorem C79_layout_source (sys : Sys) (t t' : Text) (h : Relayout t t') (d : Direction) :
    translatorFromSource sys t d = translatorFromSource sys t' d := by
  have hc : readRules (parseTable t none) = readRules (parseTable t' none) := by
    rw [readRules, readRules, parseTable_content, parseTable_content, h.content]
  rcases readRules_cases hc with ⟨rs, rs', e, e', he⟩ | ⟨x, x', e, e'⟩
  · simp only [translatorFromSource, e, e', anchor_congr he]
  · simp only [translatorFromSource, e, e']

theorem readRules_concat {rs rs' : List (Except (List TableErr) (List (Rule × Loc)))}
    (h : rs.map readRules = rs'.map readRules) : readRules (concatOrErrors rs) = readRules (concatOrErrors rs') := by
  have key : ∀ (rs : List (Except (List TableErr) (List (Rule × Loc)))),
      readRules (concatOrErrors rs) = (allSome id (rs.map readRules)).map List.flatten := by
    intro rs
    have : ∀ (rs : List (Except (List TableErr) (List (Rule × Loc)))),
        (resultOf (allOrErrors rs)).map (·.map (·.map (·.1))) = allSome id (rs.map readRules) := by
      intro rs
      induction rs with
      | nil => rfl
      | cons r rs ih =>
        cases r with
        | error e => cases hx : allOrErrors rs <;> simp [allOrErrors, hx, readRules, resultOf, allSome]
        | ok a =>
          simp only [List.map_cons, allSome, readRules, resultOf, Option.map_some, id] at ih ⊢
          rw [← ih]
          cases hx : allOrErrors rs <;> simp [allOrErrors, hx, resultOf]
    rw [← this, concatOrErrors]
    cases allOrErrors rs with
    | ok rules => simp [readRules, resultOf, List.map_flatten]
    | error es => simp [readRules, resultOf]
  rw [key, key, h]

theorem readRules_include {fs fs' : Files} (hfind : fs.find = fs'.find)
    {ex ex' : Text → Except (List TableErr) (List (Rule × Loc))} (hex : ∀ f, readRules (ex f) = readRules (ex' f))
    {r r' : Rule × Loc} (h : r.1 = r'.1) :
    readRules (expandInclude fs ex r) = readRules (expandInclude fs' ex' r') := by
  obtain ⟨r, loc⟩ := r
  obtain ⟨r', loc'⟩ := r'
  simp only at h
  subst h
  cases r
  case incl file =>
    simp only [expandInclude, hfind]
    by_cases hd : isDic file = true
    · simp only [hd, if_true]
      cases fs'.find file <;> rfl
    · simp only [hd, Bool.false_eq_true, if_false]
      exact hex file
  all_goals rfl

theorem readRules_includes {fs fs' : Files} (hfind : fs.find = fs'.find)
    {ex ex' : Text → Except (List TableErr) (List (Rule × Loc))} (hex : ∀ f, readRules (ex f) = readRules (ex' f)) :
    ∀ {rs rs' : List (Rule × Loc)}, rs.map (·.1) = rs'.map (·.1) →
      readRules (expandIncludes fs ex rs) = readRules (expandIncludes fs' ex' rs') := by
  intro rs rs' h
  refine readRules_concat ?_
  rw [List.map_map, List.map_map]
  induction rs generalizing rs' with
  | nil => cases rs' with
    | nil => rfl
    | cons => cases h
  | cons r rs ih =>
    cases rs' with
    | nil => cases h
    | cons r' rs' =>
      simp only [List.map_cons, List.cons.injEq] at h ⊢
      exact ⟨readRules_include hfind hex h.1, ih h.2⟩

theorem readRules_file {fs fs' : Files} (h : fs.Relayout fs') (path : Text) :
    readRules (tableFile fs path) = readRules (tableFile fs' path) := by
  rcases h.read path with ⟨e, e'⟩ | ⟨t, t', e, e', hl⟩
  · simp only [tableFile, e, e']
  · simp only [tableFile, e, e']
    have hc : readRules (parseTable t (some path)) = readRules (parseTable t' (some path)) := by
      rw [readRules, readRules, parseTable_content, parseTable_content, hl.content]
    rcases readRules_cases hc with ⟨rs, rs', e, e', he⟩ | ⟨x, x', e, e'⟩
    · simp only [e, e', readRules, resultOf, Option.map_some, he]
    · simp only [e, e', readRules, resultOf]

theorem readRules_expand {fs fs' : Files} (h : fs.Relayout fs') : ∀ (n : Nat) (chain : List Text) (file : Text),
    readRules (expandTable fs n chain file) = readRules (expandTable fs' n chain file) := by
  intro n
  induction n with
  | zero =>
    intro chain file
    simp only [expandTable, expandHead, h.find, h.canon]
  | succ n ih =>
    intro chain file
    simp only [expandTable, expandHead, h.find, h.canon]
    cases fs'.find file with
    | none => rfl
    | some path =>
      cases hcan : fs'.canon path with
      | none => simp only [hcan]
      | some canonical =>
        simp only [hcan]
        split
        · rfl
        · rcases readRules_cases (readRules_file h path) with ⟨rs, rs', e, e', he⟩ | ⟨x, x', e, e'⟩
          · rw [e, e']
            exact readRules_includes h.find (fun f => ih _ f) he
          · rw [e, e']; rfl

/-- **C79**, for tables in files, with all the tables they include. -/
theorem C79_layout_files (sys : Sys) (fs fs' : Files) (h : fs.Relayout fs') (files : List Text) (d : Direction) :
    translatorNew sys fs files d = translatorNew sys fs' files d := by
  have hall : readRules (allTables fs files) = readRules (allTables fs' files) := by
    induction files with
    | nil => rfl
    | cons file files ih =>
      simp only [allTables]
      rcases readRules_cases (readRules_expand h maxIncludeDepth [] file) with ⟨rs, rs', e, e', he⟩ | ⟨x, x', e, e'⟩
      · rw [tableExpanded, tableExpanded, e, e']
        rcases readRules_cases ih with ⟨us, us', f, f', hf⟩ | ⟨y, y', f, f'⟩
        · simp only [f, f', readRules, resultOf, Option.map_some, List.map_append, he, hf]
        · simp only [f, f', readRules, resultOf]
      · rw [tableExpanded, tableExpanded, e, e']; rfl
  rcases readRules_cases hall with ⟨rs, rs', e, e', he⟩ | ⟨x, x', e, e'⟩
  · simp only [translatorNew, e, e', anchor_congr he]
  · simp only [translatorNew, e, e']

/-- C79 is met by a concrete case: the same table as a beginner and as Windows would write it. -/
example : Relayout "letter a 1\nalways ab 12".toList "# a\nletter \t a 1\r\nalways ab 12".toList := by
  refine .more (.blanks "letter".toList " ".toList " \t ".toList "a 1\nalways ab 12".toList ⟨by decide, by simp [IsBlank]⟩
    ⟨by decide, by simp [IsBlank]⟩) ?_
  refine .more (.trailing "letter \t a 1".toList "\r".toList "\nalways ab 12".toList (.inr ⟨_, rfl⟩) (by simp [IsBlank])) ?_
  exact .remark [] "# a".toList "letter \t a 1\r\nalways ab 12".toList (.inl rfl)
    ⟨by decide, [], "# a".toList, rfl, by simp, .inr ⟨_, rfl⟩⟩

/-- Both are accepted, with the same rules; blanks inside a word, in contrast, do matter. -/
example : readRules (parseTable "letter a 1\nalways ab 12".toList none) =
      some [.charDef .letter 'a' [[.d1]] RuleCons.none, .text .always ['a', 'b'] (.explicit [[.d1, .d2]]) RuleCons.none []] ∧
    readRules (parseTable "# a\nletter \t a 1\r\nalways ab 12".toList none) =
      readRules (parseTable "letter a 1\nalways ab 12".toList none) ∧
    readRules (parseTable "letter a 1\nalways a x 12".toList none) = none := by
  decide +kernel

end Louis
