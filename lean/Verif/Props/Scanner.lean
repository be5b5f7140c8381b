import Verif.Spec.Table
import Verif.Lemmas.Exec
import Verif.Props.Definitions

/-!
# C30: computer braille triggers
-/

namespace Louis

theorem wordBack_eq (space : Char → Bool) : ∀ l, wordBack space l = wordAhead space l
  | [] => rfl
  | c :: cs => by simp only [wordBack, wordAhead, wordBack_eq space cs]

theorem wordAhead_le (space : Char → Bool) : ∀ l, wordAhead space l ≤ l.length
  | [] => Nat.le_refl _
  | c :: cs => by
    unfold wordAhead
    split
    · exact Nat.zero_le _
    · exact Nat.succ_le_succ (wordAhead_le space cs)

theorem wordAhead_noSpace (space : Char → Bool) : ∀ (l : Text) (i : Nat), i < wordAhead space l → ∀ c, l[i]? = some c → space c = false
  | [], i, h, _, _ => by simp [wordAhead] at h
  | x :: xs, i, h, c, hc => by
    unfold wordAhead at h
    split at h
    · simp at h
    · rename_i hx
      cases i with
      | zero =>
        simp at hc
        subst hc
        simpa using hx
      | succ i => exact wordAhead_noSpace space xs i (by omega) c (by simpa using hc)

theorem wordAhead_stop (space : Char → Bool) : ∀ l : Text, wordAhead space l = l.length ∨
    ∃ c, l[wordAhead space l]? = some c ∧ space c = true
  | [] => Or.inl rfl
  | x :: xs => by
    unfold wordAhead
    split
    · rename_i hx
      exact Or.inr ⟨x, rfl, hx⟩
    · rcases wordAhead_stop space xs with h | ⟨c, h, hc⟩
      · exact Or.inl (by rw [h]; rfl)
      · exact Or.inr ⟨c, by simpa using h, hc⟩

/-- A position without a space lies in a word, the one the scanner computes. -/
theorem word_at (space : Char → Bool) (text : Text) (pos : Nat) (c : Char) (hc : text[pos]? = some c) (hs : space c = false) :
    WordAt space text pos (pos - wordBack space (text.take pos).reverse) (pos + wordAhead space (text.drop pos)) := by
  rw [wordBack_eq]
  have hpos : pos < text.length := (List.getElem?_eq_some_iff.mp hc).1
  have hle := wordAhead_le space (text.take pos).reverse
  have hle' := wordAhead_le space (text.drop pos)
  simp only [List.length_reverse, List.length_take, Nat.min_eq_left (Nat.le_of_lt hpos)] at hle
  simp only [List.length_drop] at hle'
  have hpos' : 0 < wordAhead space (text.drop pos) := by
    rw [List.drop_eq_getElem_cons hpos]
    unfold wordAhead
    have : text[pos] = c := by
      have := List.getElem?_eq_getElem hpos
      rw [this] at hc
      injection hc
    rw [this, hs]
    simp
  refine ⟨⟨by omega, by omega, by omega⟩, ?_, ?_, ?_⟩
  · intro i h1 h2 x hx
    by_cases h : i < pos
    · apply wordAhead_noSpace space (text.take pos).reverse (pos - 1 - i) (by omega)
      rw [List.getElem?_reverse (by simp; omega)]
      simp only [List.length_take, Nat.min_eq_left (Nat.le_of_lt hpos)]
      rw [List.getElem?_take, if_pos (by omega)]
      rw [show pos - 1 - (pos - 1 - i) = i by omega]
      exact hx
    · apply wordAhead_noSpace space (text.drop pos) (i - pos) (by omega)
      rw [List.getElem?_drop, show pos + (i - pos) = i by omega]
      exact hx
  · rcases wordAhead_stop space (text.take pos).reverse with h | ⟨x, h, hx⟩
    · left
      simp only [List.length_reverse, List.length_take, Nat.min_eq_left (Nat.le_of_lt hpos)] at h
      omega
    · right
      refine ⟨x, ?_, hx⟩
      have hlt := (List.getElem?_eq_some_iff.mp h).1
      simp only [List.length_reverse, List.length_take, Nat.min_eq_left (Nat.le_of_lt hpos)] at hlt
      rw [List.getElem?_reverse (by simp; omega)] at h
      simp only [List.length_take, Nat.min_eq_left (Nat.le_of_lt hpos)] at h
      rw [List.getElem?_take, if_pos (by omega)] at h
      rw [← h]
      congr 1
      omega
  · rcases wordAhead_stop space (text.drop pos) with h | ⟨x, h, hx⟩
    · left
      simp only [List.length_drop] at h
      omega
    · right
      rw [List.getElem?_drop] at h
      exact ⟨x, h, hx⟩

/-- A position lies in at most one word. -/
theorem WordAt.unique {space : Char → Bool} {text : Text} {p q a b a' b' : Nat} (h : WordAt space text p a b)
    (h' : WordAt space text q a' b') (hpq : a ≤ q ∧ q < b) : a = a' ∧ b = b' := by
  obtain ⟨⟨i1, i2, i3⟩, n, l, r⟩ := h
  obtain ⟨⟨i1', i2', i3'⟩, n', l', r'⟩ := h'
  constructor
  · apply Nat.le_antisymm
    · rcases l with rfl | ⟨c, hc, hs⟩
      · omega
      · apply Decidable.byContradiction
        intro hlt
        have := n' (a - 1) (by omega) (by omega) c hc
        rw [hs] at this
        cases this
    · rcases l' with rfl | ⟨c, hc, hs⟩
      · omega
      · apply Decidable.byContradiction
        intro hlt
        have := n (a' - 1) (by omega) (by omega) c hc
        rw [hs] at this
        cases this
  · apply Nat.le_antisymm
    · rcases r' with rfl | ⟨c, hc, hs⟩
      · omega
      · apply Decidable.byContradiction
        intro hlt
        have := n b' (by omega) (by omega) c hc
        rw [hs] at this
        cases this
    · rcases r with rfl | ⟨c, hc, hs⟩
      · omega
      · apply Decidable.byContradiction
        intro hlt
        have := n' b (by omega) (by omega) c hc
        rw [hs] at this
        cases this

theorem isPrefixOf_iff_split (t l : Text) : t.isPrefixOf l = true ↔ ∃ post, l = t ++ post := by
  rw [List.isPrefixOf_iff_prefix]
  constructor
  · rintro ⟨p, rfl⟩; exact ⟨p, rfl⟩
  · rintro ⟨p, rfl⟩; exact ⟨p, rfl⟩

theorem any_occurs (triggers : List Text) (text : Text) (pos : Nat) (h : pos < text.length) :
    triggers.any (·.isPrefixOf (text.drop pos)) = true ↔ ∃ t ∈ triggers, OccursAt t text pos := by
  rw [List.any_eq_true]
  constructor
  · rintro ⟨t, ht, hp⟩
    exact ⟨t, ht, h, (isPrefixOf_iff_split _ _).mp hp⟩
  · rintro ⟨t, ht, -, hp⟩
    exact ⟨t, ht, (isPrefixOf_iff_split _ _).mpr hp⟩

theorem scanLoop_spec (triggers : List Text) (space : Char → Bool) (text : Text)
    (hns : ∀ t ∈ triggers, ∀ p c, OccursAt t text p → text[p]? = some c → space c = false) : ∀ (n pos : Nat) (acc : List Span),
    text.length - pos ≤ n →
    ∃ extra, scanLoop triggers space text (n + 1) pos acc = some (acc ++ extra) ∧ extra.Nodup ∧ (∀ s ∈ extra, s ∉ acc) ∧
      ∀ s, s ∈ acc ++ extra ↔ s ∈ acc ∨ (s.cls = computerBraille ∧ ∃ t ∈ triggers, ∃ p, pos ≤ p ∧ OccursAt t text p ∧
        WordAt space text p s.start s.stop) := by
  intro n
  induction n with
  | zero =>
    intro pos acc hn
    refine ⟨[], ?_, List.nodup_nil, by simp, ?_⟩
    · unfold scanLoop
      rw [if_neg (by omega), List.append_nil]
    · intro s
      rw [List.append_nil]
      constructor
      · exact Or.inl
      · rintro (h | ⟨-, t, -, p, hp, ⟨hlt, -⟩, -⟩)
        · exact h
        · omega
  | succ n ih =>
    intro pos acc hn
    by_cases hlt : pos < text.length
    · unfold scanLoop
      rw [if_pos hlt]
      by_cases hany : triggers.any (·.isPrefixOf (text.drop pos)) = true
      · rw [if_pos hany]
        obtain ⟨t, ht, hocc⟩ := (any_occurs triggers text pos hlt).mp hany
        have hc : text[pos]? = some text[pos] := List.getElem?_eq_getElem hlt
        have hw := word_at space text pos _ hc (hns t ht pos _ hocc hc)
        generalize hstart : pos - wordBack space (text.take pos).reverse = start at hw
        generalize hstop : pos + wordAhead space (text.drop pos) = stop at hw
        simp only [hstart, hstop]
        have hin := hw.inside
        have same : ∀ p, start ≤ p → p < stop → ∀ s : Span, WordAt space text p s.start s.stop → start = s.start ∧ stop = s.stop :=
          fun p h1 h2 s hs => hw.unique hs ⟨h1, h2⟩
        by_cases hm : acc.contains ⟨computerBraille, start, stop⟩ = true
        · rw [if_pos hm]
          obtain ⟨extra, e, hnd, hna, hmem⟩ := ih stop acc (by omega)
          refine ⟨extra, e, hnd, hna, ?_⟩
          intro s
          rw [hmem]
          constructor
          · rintro (h | ⟨h1, t, ht, p, hp, h2⟩)
            · exact Or.inl h
            · exact Or.inr ⟨h1, t, ht, p, by omega, h2⟩
          · rintro (h | ⟨h1, t, ht, p, hp, h2, h3⟩)
            · exact Or.inl h
            · by_cases hps : p < stop
              · left
                obtain ⟨e1, e2⟩ := same p (by omega) hps s h3
                have : s = ⟨computerBraille, start, stop⟩ := by
                  cases s
                  simp only at h1 e1 e2
                  rw [h1, e1, e2]
                rw [this]
                simpa using hm
              · exact Or.inr ⟨h1, t, ht, p, by omega, h2, h3⟩
        · rw [if_neg hm]
          obtain ⟨extra, e, hnd, hna, hmem⟩ := ih stop (acc ++ [⟨computerBraille, start, stop⟩]) (by omega)
          have hm' : (⟨computerBraille, start, stop⟩ : Span) ∉ acc := by simpa using hm
          refine ⟨⟨computerBraille, start, stop⟩ :: extra, by rw [e, List.append_assoc]; rfl, ?_, ?_, ?_⟩
          · rw [List.nodup_cons]
            refine ⟨?_, hnd⟩
            intro h
            exact hna _ h (List.mem_append_right _ (List.mem_singleton.mpr rfl))
          · intro s hs
            rcases List.mem_cons.mp hs with rfl | hs
            · exact hm'
            · intro h
              exact hna s hs (List.mem_append_left _ h)
          · intro s
            have := hmem s
            rw [List.append_assoc, List.singleton_append] at this
            rw [this]
            rw [List.mem_append, List.mem_singleton]
            constructor
            · rintro ((h | rfl) | ⟨h1, t, ht, p, hp, h2⟩)
              · exact Or.inl h
              · exact Or.inr ⟨rfl, t, ht, pos, Nat.le_refl _, hocc, hw⟩
              · exact Or.inr ⟨h1, t, ht, p, by omega, h2⟩
            · rintro (h | ⟨h1, t, ht, p, hp, h2, h3⟩)
              · exact Or.inl (Or.inl h)
              · by_cases hps : p < stop
                · left; right
                  obtain ⟨e1, e2⟩ := same p (by omega) hps s h3
                  cases s
                  simp only at h1 e1 e2
                  rw [h1, e1, e2]
                · exact Or.inr ⟨h1, t, ht, p, by omega, h2, h3⟩
      · rw [if_neg hany]
        obtain ⟨extra, e, hnd, hna, hmem⟩ := ih (pos + 1) acc (by omega)
        refine ⟨extra, e, hnd, hna, ?_⟩
        intro s
        rw [hmem]
        constructor
        · rintro (h | ⟨h1, t, ht, p, hp, h2⟩)
          · exact Or.inl h
          · exact Or.inr ⟨h1, t, ht, p, by omega, h2⟩
        · rintro (h | ⟨h1, t, ht, p, hp, h2, h3⟩)
          · exact Or.inl h
          · refine Or.inr ⟨h1, t, ht, p, ?_, h2, h3⟩
            rcases Nat.lt_or_ge pos p with h | h
            · exact h
            · exfalso
              have : p = pos := by omega
              subst this
              exact hany ((any_occurs triggers text p hlt).mpr ⟨t, ht, h2⟩)
    · refine ⟨[], ?_, List.nodup_nil, by simp, ?_⟩
      · unfold scanLoop
        rw [if_neg hlt, List.append_nil]
      · intro s
        rw [List.append_nil]
        constructor
        · exact Or.inl
        · rintro (h | ⟨-, t, -, p, hp, ⟨hlt', -⟩, -⟩)
          · exact h
          · omega

theorem scanLoop_mono (triggers : List Text) (space : Char → Bool) (text : Text) : ∀ (f : Nat) (pos : Nat) (acc r : List Span),
    scanLoop triggers space text f pos acc = some r → ∀ f', f ≤ f' → scanLoop triggers space text f' pos acc = some r
  | 0, _, _, _, h, _, _ => by simp [scanLoop] at h
  | f + 1, pos, acc, r, h, f', hf => by
    obtain ⟨f', rfl⟩ : ∃ k, f' = k + 1 := ⟨f' - 1, by omega⟩
    have hf : f ≤ f' := by omega
    unfold scanLoop at h ⊢
    split at h
    · rename_i h1
      rw [if_pos h1]
      split at h
      · rename_i h2
        rw [if_pos h2]
        exact scanLoop_mono triggers space text f _ _ _ h f' hf
      · rename_i h2
        rw [if_neg h2]
        exact scanLoop_mono triggers space text f _ _ _ h f' hf
    · rename_i h1
      rw [if_neg h1]
      exact h

/-- **C30.** Unless a trigger occurs at a space, the scanner terminates with exactly one result: the caller's spans, followed
by the words in which a trigger occurs (each word once, and only if the caller has not given the same span). -/
theorem C30_words_partial (triggers : List Text) (space : Char → Bool) (text : Text) (spans : List Span)
    (hns : ∀ t ∈ triggers, ∀ p c, OccursAt t text p → text[p]? = some c → space c = false) :
    ∃ extra, (∀ result, Enriches triggers space text spans result ↔ result = spans ++ extra) ∧ extra.Nodup ∧
      (∀ s ∈ extra, s ∉ spans) ∧
      ∀ s, s ∈ spans ++ extra ↔ s ∈ spans ∨ (s.cls = computerBraille ∧ ∃ t ∈ triggers, ∃ p, OccursAt t text p ∧
        WordAt space text p s.start s.stop) := by
  obtain ⟨extra, e, h1, h2, h3⟩ := scanLoop_spec triggers space text hns text.length 0 spans (by omega)
  refine ⟨extra, ?_, h1, h2, ?_⟩
  · intro result
    constructor
    · rintro ⟨f, hf⟩
      have a := scanLoop_mono triggers space text f 0 spans result hf (max f (text.length + 1)) (by omega)
      have b := scanLoop_mono triggers space text _ 0 spans _ e (max f (text.length + 1)) (by omega)
      rw [a] at b
      injection b
    · rintro rfl
      exact ⟨_, e⟩
  · intro s
    rw [h3]
    simp

theorem scanLoop_diverges (triggers : List Text) (space : Char → Bool) (text : Text) (t : Text) (ht : t ∈ triggers) (p : Nat)
    (c : Char) (hocc : OccursAt t text p) (hc : text[p]? = some c) (hs : space c = true) : ∀ (f pos : Nat) (acc : List Span),
    pos ≤ p → scanLoop triggers space text f pos acc = none
  | 0, _, _, _ => rfl
  | f + 1, pos, acc, hle => by
    have hp : p < text.length := hocc.1
    have hnext : pos + wordAhead space (text.drop pos) ≤ p := by
      apply Decidable.byContradiction
      intro hn
      have := wordAhead_noSpace space (text.drop pos) (p - pos) (by omega) c
        (by rw [List.getElem?_drop, show pos + (p - pos) = p by omega]; exact hc)
      rw [hs] at this
      cases this
    unfold scanLoop
    rw [if_pos (by omega)]
    split
    · exact scanLoop_diverges triggers space text t ht p c hocc hc hs f _ _ hnext
    · rename_i hany
      apply scanLoop_diverges triggers space text t ht p c hocc hc hs f _ _
      rcases Nat.lt_or_ge pos p with h | h
      · exact h
      · exfalso
        have : pos = p := by omega
        subst this
        exact hany ((any_occurs triggers text pos hp).mpr ⟨t, ht, hocc⟩)

/-- **C30 is false of the code**: whenever a trigger occurs at a space, however far into the text, the scanner never
finishes, and with it the translation. -/
theorem C30_diverges_wrong (triggers : List Text) (space : Char → Bool) (text : Text) (spans : List Span) (t : Text)
    (ht : t ∈ triggers) (p : Nat) (c : Char) (hocc : OccursAt t text p) (hc : text[p]? = some c) (hs : space c = true) :
    ¬ ∃ result, Enriches triggers space text spans result := by
  rintro ⟨result, f, h⟩
  rw [scanLoop_diverges triggers space text t ht p c hocc hc hs f 0 spans (Nat.zero_le _)] at h
  cases h

/-- `space \s 0`, `letter a 1`, `compbrl \sa`: a table that hangs on every text containing " a". -/
def hangRules : List Anchored :=
  [⟨.charDef .space ' ' [[.d0]] RuleCons.none, 0⟩, ⟨.charDef .letter 'a' [[.d1]] RuleCons.none, 1⟩,
    ⟨.compbrl " a".toList RuleCons.none, 2⟩]

set_option maxRecDepth 10000 in
/-- **C30, C09 are false of the code**: this table compiles, and has no translation of "a a". -/
theorem C30_table_hangs_wrong : ∃ steps, Pipeline.compile demoSys hangRules .forward = .ok steps ∧
    ¬ ∃ tss, Pipeline.Traces ascii [] "a a".toList steps tss := by
  have h : ∃ p : Primary, Pipeline.compile demoSys hangRules .forward = .ok [.primary p] ∧ p.triggers = [" a".toList] ∧
      p.classes.isWhitespace ' ' = true := ⟨_, rfl, rfl, by decide +kernel⟩
  obtain ⟨p, hc, ht, hs⟩ := h
  refine ⟨_, hc, ?_⟩
  rintro ⟨tss, ts, rest, -, ⟨enriched, cons, ind, he, -⟩, -⟩
  rw [ht] at he
  simp only [List.isEmpty_cons, Bool.false_eq_true, if_false] at he
  exact C30_diverges_wrong [" a".toList] _ "a a".toList [] " a".toList (List.mem_singleton.mpr rfl) 1 ' '
    ⟨by decide, [], rfl⟩ rfl hs ⟨enriched, he⟩

/-- Non-vacuity of `C30_words_partial`: triggers `www` and `@`, a text with two such words. -/
example : (∀ t ∈ ["www".toList, "@".toList], ∀ p c, OccursAt t "see www.a.b me@c.d".toList p →
      "see www.a.b me@c.d".toList[p]? = some c → (c == ' ') = false) ∧
    scanLoop ["www".toList, "@".toList] (· == ' ') "see www.a.b me@c.d".toList 30 0 [] =
      some [⟨computerBraille, 4, 11⟩, ⟨computerBraille, 12, 18⟩] := by
  refine ⟨?_, by decide +kernel⟩
  rintro t ht p c ⟨-, post, hp⟩ hc
  have h0 : ("see www.a.b me@c.d".toList.drop p)[0]? = some c := by
    rw [List.getElem?_drop]; exact hc
  rw [hp] at h0
  simp at ht
  rcases ht with rfl | rfl
  · simp at h0; subst h0; decide
  · simp at h0; subst h0; decide

end Louis
