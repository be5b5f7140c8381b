import Verif.Spec.Paste
import Verif.Props.Layout

/-!
# C80: an included table is a pasted text, several tables are one
-/

namespace Louis

theorem lines_no_nl : ∀ (t l : Text), l ∈ lines t → '\n' ∉ l := by
  intro t
  induction hn : t.length using Nat.strongRecOn generalizing t with
  | ind n ih =>
    intro l hl
    rcases first_line t with h | ⟨l', rest, rfl, h⟩
    · rw [C32_last_line t h] at hl
      split at hl
      · cases hl
      · simp only [List.mem_singleton] at hl
        rw [hl]; exact h
    · rw [C32_lines_cut l' rest h, List.mem_cons] at hl
      rcases hl with rfl | hl
      · rw [chomp]
        split
        · exact fun hm => h (List.dropLast_subset _ hm)
        · exact h
      · exact ih rest.length (by rw [← hn]; simp; omega) rest rfl l hl

theorem Pasted.no_nl {fs : Files} {ls out : List Text} (h : Pasted fs ls out) (hls : ∀ l ∈ ls, '\n' ∉ l) :
    ∀ l ∈ out, '\n' ∉ l := by
  induction h with
  | done => intro l hl; cases hl
  | keep line rest out h _ ih =>
    intro l hl
    rcases List.mem_cons.mp hl with rfl | hl
    · exact hls _ (by simp)
    · exact ih (fun l hl => hls l (by simp [hl])) l hl
  | paste line file path text rest inner out h hd hf hr _ _ ih1 ih2 =>
    intro l hl
    rcases List.mem_append.mp hl with hl | hl
    · exact ih1 (fun l hl => lines_no_nl text l hl) l hl
    · exact ih2 (fun l hl => hls l (by simp [hl])) l hl

theorem PastedTables.no_nl {fs : Files} {files out : List Text} (h : PastedTables fs files out) : ∀ l ∈ out, '\n' ∉ l := by
  induction h with
  | done => intro l hl; cases hl
  | table file path text files out outs hf hr here _ ih =>
    intro l hl
    rcases List.mem_append.mp hl with hl | hl
    · exact here.no_nl (fun l hl => lines_no_nl text l hl) l hl
    · exact ih l hl

theorem content_textOf : ∀ (ls : List Text), (∀ l ∈ ls, '\n' ∉ l) → content (textOf ls) = ls.flatMap lineContent := by
  intro ls
  induction ls with
  | nil => intro _; rfl
  | cons l ls ih =>
    intro h
    have : textOf (l :: ls) = l ++ '\n' :: textOf ls := by simp [textOf]
    rw [this, content_line l _ (h l (by simp)), ih fun l hl => h l (by simp [hl]), List.flatMap_cons]

theorem rulesIn_append {a b : List (List Text)} {x y : List Rule} (ha : rulesIn a = some x) (hb : rulesIn b = some y) :
    rulesIn (a ++ b) = some (x ++ y) := by
  simp only [rulesIn] at ha hb ⊢
  rw [allSome_append, ha, hb]; rfl

/-- What a pasted text is read as. -/
theorem Pasted.rules {fs : Files} {ls out : List Text} (h : Pasted fs ls out) : ∀ (n : Nat) (rules o : List (Rule × Loc)),
    rules.map (fun r => some r.1) = (ls.filter isRuleLine).map parseLine → Inlined fs (ExpandsTo fs n) rules o →
    rulesIn (out.flatMap lineContent) = some (o.map (·.1)) := by
  induction h with
  | done =>
    intro n rules o hrules hi
    cases rules with
    | cons => cases hrules
    | nil => cases hi; rfl
  | keep line rest out hno _ ih =>
    intro n rules o hrules hi
    by_cases hl : isRuleLine line = true
    · rw [List.filter_cons_of_pos hl] at hrules
      cases rules with
      | nil => cases hrules
      | cons r rules =>
        obtain ⟨r, loc⟩ := r
        simp only [List.map_cons, List.cons.injEq] at hrules
        cases hi with
        | rule _ _ _ o' hne more =>
          rw [List.flatMap_cons]
          refine rulesIn_append (x := [r]) ?_ (ih n rules o' hrules.2 more)
          have : (pRule (tokens line)).map (·.1) = some r := hrules.1.symm
          simp [lineContent, hl, rulesIn, allSome, this]
        | dictionary file path loc rest out hd hf more => exact absurd ⟨hl, hrules.1.symm⟩ (hno file)
        | table file loc rest inner out hd hf more => exact absurd ⟨hl, hrules.1.symm⟩ (hno file)
    · rw [List.filter_cons_of_neg hl] at hrules
      rw [List.flatMap_cons]
      have : lineContent line = [] := by simp [lineContent, hl]
      rw [this]
      exact ih n rules o hrules hi
  | paste line file path text rest inner out hin hd hf hr _ _ ih1 ih2 =>
    intro n rules o hrules hi
    rw [List.filter_cons_of_pos hin.1] at hrules
    cases rules with
    | nil => cases hrules
    | cons r rules =>
      obtain ⟨r, loc⟩ := r
      simp only [List.map_cons, List.cons.injEq, hin.2, Option.some.injEq] at hrules
      obtain ⟨rfl, hrules⟩ := hrules
      cases hi with
      | rule _ _ _ o' hne more => exact absurd rfl (hne file)
      | dictionary _ path loc rest out hd' hf more => rw [hd] at hd'; cases hd'
      | table _ loc rest inner' out' hd hx more =>
        cases n with
        | zero => exact hx.elim
        | succ n =>
          obtain ⟨path', rules', h1, h2, h3, h4⟩ := hx
          rw [hf] at h1; cases h1
          obtain ⟨text', e, hp⟩ := (tableFile_ok_iff _ _ _).mp h3
          rw [hr] at e; cases e
          rw [List.flatMap_append, List.map_append]
          exact rulesIn_append (ih1 n rules' inner' (C32_rules_of_lines _ _ _ hp) h4) (ih2 _ rules out' hrules more)

theorem Inlined.no_incl {fs : Files} {I : Text → List (Rule × Loc) → Prop} (hI : ∀ f o, I f o → ∀ r ∈ o, ∀ g, r.1 ≠ .incl g)
    {rules out} (h : Inlined fs I rules out) : ∀ r ∈ out, ∀ g, r.1 ≠ .incl g := by
  induction h with
  | done => intro r hr; cases hr
  | rule r loc rest out hne _ ih =>
    intro x hx
    rcases List.mem_cons.mp hx with rfl | hx
    · exact hne
    · exact ih x hx
  | dictionary file path loc rest out hd hf _ ih =>
    intro x hx g
    rcases List.mem_cons.mp hx with rfl | hx
    · intro e; cases e
    · exact ih x hx g
  | table file loc rest inner out hd hf _ ih =>
    intro x hx
    rcases List.mem_append.mp hx with hx | hx
    · exact hI _ _ hf x hx
    · exact ih x hx

theorem ExpandsTo.no_incl {fs : Files} : ∀ {n : Nat} {file : Text} {out : List (Rule × Loc)}, ExpandsTo fs n file out →
    ∀ r ∈ out, ∀ g, r.1 ≠ .incl g := by
  intro n
  induction n with
  | zero => intro file out h; exact h.elim
  | succ n ih =>
    rintro file out ⟨path, rules, h1, h2, h3, h4⟩
    exact h4.no_incl fun f o hf => ih hf

theorem PastedTables.rules {fs : Files} {files outs : List Text} (h : PastedTables fs files outs) :
    ∀ (rules : List (Rule × Loc)), allTables fs files = .ok rules →
      rulesIn (outs.flatMap lineContent) = some (rules.map (·.1)) ∧ ∀ r ∈ rules, ∀ g, r.1 ≠ .incl g := by
  induction h with
  | done => intro rules hr; cases hr; exact ⟨rfl, by intro r hr; cases hr⟩
  | table file path text files out outs hf hr here _ ih =>
    intro rules hall
    simp only [allTables] at hall
    cases hx : tableExpanded fs file with
    | error es => rw [hx] at hall; cases hall
    | ok rs =>
      rw [hx] at hall
      cases hy : allTables fs files with
      | error es => rw [hy] at hall; cases hall
      | ok more =>
        rw [hy] at hall
        simp only [Except.ok.injEq] at hall
        subst hall
        obtain ⟨i1, i2⟩ := ih more hy
        have hex := expandTable_sound fs 64 [] file rs hx
        have hno := hex.no_incl
        obtain ⟨path', rules', h1, h2, h3, h4⟩ := hex
        rw [hf] at h1; cases h1
        obtain ⟨text', e, hp⟩ := (tableFile_ok_iff _ _ _).mp h3
        rw [hr] at e; cases e
        refine ⟨?_, ?_⟩
        · rw [List.flatMap_append, List.map_append]
          exact rulesIn_append (here.rules 63 rules' rs (C32_rules_of_lines _ _ _ hp) h4) i1
        · intro r hm
          rcases List.mem_append.mp hm with hm | hm
          · exact hno r hm
          · exact i2 r hm

/-- **C80.** Tables that can be read behave like the one text made of all their lines, in which every include is replaced by
the lines of the included table. -/
theorem C80_pasted (sys : Sys) (fs : Files) (files : List Text) (d : Direction) (outs : List Text)
    (h : PastedTables fs files outs) (hok : translatorNew sys fs files d ≠ .error .parse) :
    translatorFromSource sys (textOf outs) d = translatorNew sys fs files d := by
  simp only [translatorNew] at hok ⊢
  cases hall : allTables fs files with
  | error es => rw [hall] at hok; exact absurd rfl hok
  | ok rules =>
    obtain ⟨h1, h2⟩ := h.rules rules hall
    have hc := parseTable_content (textOf outs) none
    rw [content_textOf outs h.no_nl, h1] at hc
    cases hp : parseTable (textOf outs) none with
    | error es => rw [hp] at hc; cases hc
    | ok rs =>
      rw [hp] at hc
      simp only [resultOf, Option.map_some, Option.some.injEq] at hc
      simp only [translatorFromSource, hp, fromTableSource, anchor_congr hc]
      rw [if_neg]
      · cases Pipeline.compile sys (anchor rules) d <;> rfl
      rw [Bool.not_eq_true, List.any_eq_false]
      intro r hm
      simp only [anchor, List.mem_map] at hm
      obtain ⟨a, ha, rfl⟩ := hm
      have hmem := List.mem_of_getElem? (List.mem_zipIdx_iff_getElem?.mp ha)
      cases hra : a.1.1 <;> simp only [hra, Bool.false_eq_true, not_false_eq_true]
      exact absurd hra (h2 a.1 hmem _)

/-- C80: if the pasted text is not accepted, the tables are not accepted either. -/
theorem C80_rejected (sys : Sys) (fs : Files) (files : List Text) (d : Direction) (outs : List Text)
    (h : PastedTables fs files outs) (hok : translatorFromSource sys (textOf outs) d = .error .parse) :
    translatorNew sys fs files d = .error .parse := by
  by_cases hn : translatorNew sys fs files d = .error .parse
  · exact hn
  · rw [← C80_pasted sys fs files d outs h hn, hok]

/-- C80: there is at most one pasted text. -/
theorem Pasted.unique {fs : Files} {ls out out' : List Text} (h : Pasted fs ls out) (h' : Pasted fs ls out') : out = out' := by
  induction h generalizing out' with
  | done => cases h'; rfl
  | keep line rest out hno _ ih =>
    cases h' with
    | keep _ _ out2 _ more => rw [ih more]
    | paste _ file path text _ inner out2 hin => exact absurd hin (hno file)
  | paste line file path text rest inner out hin hd hf hr _ _ ih1 ih2 =>
    cases h' with
    | keep _ _ out2 hno _ => exact absurd hin (hno file)
    | paste _ file' path' text' _ inner' out2 hin' hd' hf' hr' here more =>
      have e := hin.2.symm.trans hin'.2
      cases e
      rw [hf] at hf'; cases hf'
      rw [hr] at hr'; cases hr'
      rw [ih1 here, ih2 more]

theorem C80_pasted_unique {fs : Files} {files out out' : List Text} (h : PastedTables fs files out)
    (h' : PastedTables fs files out') : out = out' := by
  induction h generalizing out' with
  | done => cases h'; rfl
  | table file path text files out outs hf hr here _ ih =>
    cases h' with
    | table _ path' text' _ out2 outs2 hf' hr' here' more =>
      rw [hf] at hf'; cases hf'
      rw [hr] at hr'; cases hr'
      rw [here.unique here', ih more]

theorem pasted_exists_at (fs : Files) (n : Nat) (hn : ∀ f o, ExpandsTo fs n f o → (∀ r ∈ o, ∀ p, r.1 ≠ .includeHyphenation p) →
      ∃ path text out, fs.find f = some path ∧ fs.read path = some text ∧ Pasted fs (lines text) out) :
    ∀ (ls : List Text) (rules o : List (Rule × Loc)), rules.map (fun r => some r.1) = (ls.filter isRuleLine).map parseLine →
      Inlined fs (ExpandsTo fs n) rules o → (∀ r ∈ o, ∀ p, r.1 ≠ .includeHyphenation p) → ∃ out, Pasted fs ls out := by
  intro ls
  induction ls with
  | nil => intro _ _ _ _ _; exact ⟨[], .done⟩
  | cons line ls ih =>
    intro rules o hrules hi hno
    by_cases hl : isRuleLine line = true
    · rw [List.filter_cons_of_pos hl] at hrules
      cases rules with
      | nil => cases hrules
      | cons r rules =>
        obtain ⟨r, loc⟩ := r
        simp only [List.map_cons, List.cons.injEq] at hrules
        cases hi with
        | rule _ _ _ o' hne more =>
          obtain ⟨out, hout⟩ := ih rules o' hrules.2 more fun r hr => hno r (by simp [hr])
          refine ⟨_, .keep line ls out (fun file hin => ?_) hout⟩
          have e := hin.2
          rw [← hrules.1] at e
          cases e
          exact hne file rfl
        | dictionary file path _ _ o' hd hf more => exact absurd rfl (hno (.includeHyphenation path, loc) List.mem_cons_self path)
        | table file _ _ inner o' hd hx more =>
          obtain ⟨out, hout⟩ := ih rules o' hrules.2 more fun r hr => hno r (by simp [hr])
          obtain ⟨path, text, inn, h1, h2, h3⟩ := hn file inner hx fun r hr => hno r (by simp [hr])
          exact ⟨_, .paste line file path text ls inn out ⟨hl, hrules.1.symm⟩ hd h1 h2 h3 hout⟩
    · rw [List.filter_cons_of_neg hl] at hrules
      obtain ⟨out, hout⟩ := ih rules o hrules hi hno
      exact ⟨_, .keep line ls out (fun file hin => hl hin.1) hout⟩

theorem ExpandsTo.pasted {fs : Files} : ∀ {n : Nat} {file : Text} {o : List (Rule × Loc)}, ExpandsTo fs n file o →
    (∀ r ∈ o, ∀ p, r.1 ≠ .includeHyphenation p) →
      ∃ path text out, fs.find file = some path ∧ fs.read path = some text ∧ Pasted fs (lines text) out := by
  intro n
  induction n with
  | zero => intro file o h; exact h.elim
  | succ n ih =>
    rintro file o ⟨path, rules, h1, h2, h3, h4⟩ hno
    obtain ⟨text, e, hp⟩ := (tableFile_ok_iff _ _ _).mp h3
    obtain ⟨out, hout⟩ := pasted_exists_at fs n (fun f o hf hno => ih hf hno) (lines text) rules o
      (C32_rules_of_lines _ _ _ hp) h4 hno
    exact ⟨path, text, out, h1, e, hout⟩

/-- C80: tables that can be read, and include no hyphenation dictionary, can be pasted into one text. -/
theorem C80_pasted_exists (fs : Files) (files : List Text) (rules : List (Rule × Loc)) (h : allTables fs files = .ok rules)
    (hno : ∀ r ∈ rules, ∀ p, r.1 ≠ .includeHyphenation p) : ∃ outs, PastedTables fs files outs := by
  induction files generalizing rules with
  | nil => exact ⟨[], .done⟩
  | cons file files ih =>
    simp only [allTables] at h
    cases hx : tableExpanded fs file with
    | error es => rw [hx] at h; cases h
    | ok rs =>
      rw [hx] at h
      cases hy : allTables fs files with
      | error es => rw [hy] at h; cases h
      | ok more =>
        rw [hy] at h
        simp only [Except.ok.injEq] at h
        subst h
        obtain ⟨outs, houts⟩ := ih more hy fun r hr => hno r (by simp [hr])
        obtain ⟨path, text, out, h1, h2, h3⟩ := (expandTable_sound fs 64 [] file rs hx).pasted fun r hr => hno r (by simp [hr])
        exact ⟨_, .table file path text files out outs h1 h2 h3 houts⟩

theorem not_include {line : Text} {r : Rule} (h : parseLine line = some r) (hne : ∀ f, r ≠ .incl f) (file : Text) :
    ¬ IsIncludeLine line file := by
  rintro ⟨_, h'⟩
  rw [h] at h'
  cases h'
  exact hne file rfl

theorem Pasted.text {fs : Files} {text : Text} {ls out : List Text} (h : Pasted fs ls out) (e : lines text = ls) :
    Pasted fs (lines text) out := by
  rw [e]; exact h

/-- C80 is met by a concrete case: the diamond of includes of C33. -/
example : PastedTables diamondFiles ["a".toList, "d".toList]
    ["letter z 3".toList, "letter x 1".toList, "letter z 3".toList, "letter y 2".toList, "letter z 3".toList] := by
  have hz : Pasted diamondFiles (lines "letter z 3\n".toList) ["letter z 3".toList] :=
    Pasted.text (ls := ["letter z 3".toList]) (.keep _ _ _ (not_include (r := .charDef .letter 'z' [[.d3]] RuleCons.none)
      (by decide +kernel) (by intro f e; cases e)) .done) (by decide +kernel)
  have fd : diamondFiles.find "d".toList = some "d".toList := by decide +kernel
  have rd : diamondFiles.read "d".toList = some "letter z 3\n".toList := by decide +kernel
  have id : IsIncludeLine "include d".toList "d".toList := ⟨by decide +kernel, by decide +kernel⟩
  have dd : isDic "d".toList = false := by decide +kernel
  have hb : Pasted diamondFiles (lines "include d\n".toList) ["letter z 3".toList] :=
    Pasted.text (ls := ["include d".toList]) (.paste _ _ _ _ [] _ [] id dd fd rd hz .done) (by decide +kernel)
  have hc : Pasted diamondFiles (lines "include d\nletter y 2\n".toList) ["letter z 3".toList, "letter y 2".toList] :=
    Pasted.text (ls := ["include d".toList, "letter y 2".toList]) (.paste _ _ _ _ ["letter y 2".toList] _ ["letter y 2".toList]
      id dd fd rd hz (.keep _ _ _ (not_include (r := .charDef .letter 'y' [[.d2]] RuleCons.none)
      (by decide +kernel) (by intro f e; cases e)) .done)) (by decide +kernel)
  have ha : Pasted diamondFiles (lines "include b\nletter x 1\ninclude c\n".toList)
      (["letter z 3".toList] ++ ("letter x 1".toList :: (["letter z 3".toList, "letter y 2".toList] ++ []))) :=
    Pasted.text (ls := ["include b".toList, "letter x 1".toList, "include c".toList])
      (.paste _ "b".toList "b".toList _ _ _ _ ⟨by decide +kernel, by decide +kernel⟩ (by decide +kernel) (by decide +kernel)
        (by decide +kernel) hb (.keep _ _ _ (not_include (r := .charDef .letter 'x' [[.d1]] RuleCons.none)
        (by decide +kernel) (by intro f e; cases e)) (.paste _ "c".toList "c".toList _ [] _ [] ⟨by decide +kernel, by decide +kernel⟩
        (by decide +kernel) (by decide +kernel) (by decide +kernel) hc .done))) (by decide +kernel)
  exact .table _ "a".toList _ _ _ _ (by decide +kernel) (by decide +kernel) ha (.table _ _ _ [] _ [] fd rd hz .done)

end Louis
