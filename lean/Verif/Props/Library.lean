import Verif.Spec.Table

/-!
# C16 (display tables), C18 (position maps), C38 (table search)
-/

namespace Louis

open Regexp (Fault)

theorem Rule.isDirection_iff (r : Rule) (d : Direction) : r.isDirection d = true ↔ r.AllowedIn d := by
  unfold Rule.isDirection Rule.AllowedIn
  cases d <;> cases h : r.cons.nofor <;> cases h' : r.cons.noback <;> simp <;> decide

/-! ## Display tables -/

/-- The pair a rule contributes to a display table. -/
def displayPair (d : Direction) (r : Anchored) : Option (Char × Char) :=
  if r.rule.isDirection d then match r.rule with
    | .display c dots _ => match d with
      | .forward => some (dots.toUnicode, c)
      | .backward => some (c, dots.toUnicode)
    | _ => none
  else none

theorem compile_display (rules : List Anchored) (d : Direction) :
    DisplayTable.compile rules d = rules.filterMap (displayPair d) := by
  induction rules with
  | nil => rfl
  | cons r rs ih =>
    unfold DisplayTable.compile at ih ⊢
    rw [List.filterMap_cons, ← ih, List.filter_cons]
    unfold displayPair
    cases h : r.rule.isDirection d
    · rfl
    · rfl

theorem displayPair_iff (d : Direction) (r : Anchored) (a b : Char) :
    displayPair d r = some (a, b) ↔ r.rule.Displays d a b := by
  unfold displayPair Rule.Displays
  constructor
  · intro h
    split at h
    · rename_i hd
      have hal := (Rule.isDirection_iff _ _).mp hd
      cases hr : r.rule <;> rw [hr] at h <;> simp only [reduceCtorEq] at h
      rename_i c dots cons
      cases d <;> simp at h <;> exact ⟨c, dots, cons, rfl, hr ▸ hal, h.1.symm, h.2.symm⟩
    · simp at h
  · rintro ⟨c, cell, cons, hr, hal, h⟩
    rw [if_pos ((Rule.isDirection_iff _ _).mpr hal), hr]
    cases d <;> simp at h ⊢ <;> exact ⟨h.1.symm, h.2.symm⟩

/-- **C16.** A display table maps each character by itself, in order, and keeps the number of characters. -/
theorem C16_per_character (rules : List Anchored) (d : Direction) (text : Text) :
    (DisplayTable.compile rules d).translate text =
      text.flatMap (fun c => (DisplayTable.compile rules d).translate [c]) ∧
    ((DisplayTable.compile rules d).translate text).length = text.length := by
  constructor
  · unfold DisplayTable.translate
    induction text with
    | nil => rfl
    | cons c cs ih => simp [List.flatMap_cons, ih]
  · simp [DisplayTable.translate]

/-- **C16.** A character mapped by a display rule of the direction is mapped by the first such rule of the table. -/
theorem C16_first_rule (before after : List Anchored) (r : Anchored) (d : Direction) (src dst : Char)
    (hr : r.rule.Displays d src dst) (hfirst : ∀ r' ∈ before, ∀ dst', ¬ r'.rule.Displays d src dst') :
    (DisplayTable.compile (before ++ r :: after) d).translate [src] = [dst] := by
  have h0 : ∀ l : List Anchored, (∀ r' ∈ l, ∀ dst', ¬ r'.rule.Displays d src dst') →
      (l.filterMap (displayPair d)).find? (·.1 == src) = none := by
    intro l hl
    rw [List.find?_eq_none]
    intro p hp
    obtain ⟨r', hr', e⟩ := List.mem_filterMap.mp hp
    intro hc
    have hc := eq_of_beq hc
    obtain ⟨a, b⟩ := p
    exact hl r' hr' b ((displayPair_iff d r' src b).mp (hc ▸ e))
  have hp := (displayPair_iff d r src dst).mpr hr
  simp only [DisplayTable.translate, DisplayTable.get, compile_display, List.filterMap_append, List.filterMap_cons, hp,
    List.find?_append, h0 before hfirst, List.map_cons, List.map_nil]
  simp

/-- **C16.** A character no display rule of the direction maps is left as it is. -/
theorem C16_unmapped (rules : List Anchored) (d : Direction) (c : Char)
    (h : ∀ r ∈ rules, ∀ dst, ¬ r.rule.Displays d c dst) : (DisplayTable.compile rules d).translate [c] = [c] := by
  have : (rules.filterMap (displayPair d)).find? (·.1 == c) = none := by
    rw [List.find?_eq_none]
    intro p hp
    obtain ⟨r', hr', e⟩ := List.mem_filterMap.mp hp
    intro hc
    have hc := eq_of_beq hc
    obtain ⟨a, b⟩ := p
    exact h r' hr' b ((displayPair_iff d r' c b).mp (hc ▸ e))
  simp only [DisplayTable.translate, DisplayTable.get, compile_display, this, List.map_cons, List.map_nil]
  rfl

/-- Non-vacuity: two rules for the cell of dot 1, the first for backward only. -/
example : (DisplayTable.compile [⟨.display 'x' [.d1] ⟨true, false, false⟩, 0⟩, ⟨.display 'a' [.d1] RuleCons.none, 1⟩,
    ⟨.display 'b' [.d1] RuleCons.none, 2⟩] .forward).translate ['⠁', '⠃'] = ['a', '⠃'] := by decide +kernel

example : (Rule.display 'a' [.d1] RuleCons.none).Displays .forward '⠁' 'a' := ⟨'a', [.d1], _, rfl, rfl, by decide +kernel, rfl⟩

/-! ## Position maps -/

/-- Number of input characters of a trace. -/
def inputLength (ts : List Resolved) : Nat := (ts.map (·.input.length)).sum

/-- Number of output characters of a trace. -/
def outputLength (ts : List Resolved) : Nat := (ts.map (·.output.length)).sum

/-- A translation read the other way round. -/
def Resolved.flip (t : Resolved) : Resolved := { t with input := t.output, output := t.input }

theorem inputPositionsFrom_flip (ts : List Resolved) : ∀ o, inputPositionsFrom o ts = outputPositionsFrom o (ts.map Resolved.flip) := by
  induction ts with
  | nil => intro o; rfl
  | cons t ts ih => intro o; simp only [inputPositionsFrom, List.map_cons, outputPositionsFrom, ih]; rfl

theorem inputPositions_flip (ts : List Resolved) : inputPositions ts = outputPositions (ts.map Resolved.flip) :=
  inputPositionsFrom_flip ts 0

theorem outputPositionsFrom_length (ts : List Resolved) : ∀ o, (outputPositionsFrom o ts).length = inputLength ts := by
  induction ts with
  | nil => intro o; rfl
  | cons t ts ih => intro o; simp [outputPositionsFrom, ih, inputLength]

theorem outputPositionsFrom_bounds (ts : List Resolved) : ∀ o, ∀ p ∈ outputPositionsFrom o ts,
    o ≤ p ∧ p ≤ o + outputLength ts := by
  induction ts with
  | nil => intro o p hp; simp [outputPositionsFrom] at hp
  | cons t ts ih =>
    intro o p hp
    simp only [outputPositionsFrom, List.mem_append, List.mem_map, List.mem_range] at hp
    simp only [outputLength, List.map_cons, List.sum_cons]
    rcases hp with ⟨i, hi, rfl⟩ | hp
    · constructor
      · omega
      · have : min i (t.output.length - 1) ≤ t.output.length := by omega
        omega
    · have := ih _ p hp
      simp only [outputLength] at this
      omega

theorem outputPositionsFrom_sorted (ts : List Resolved) : ∀ o, (outputPositionsFrom o ts).Pairwise (· ≤ ·) := by
  induction ts with
  | nil => intro o; exact List.Pairwise.nil
  | cons t ts ih =>
    intro o
    simp only [outputPositionsFrom]
    rw [List.pairwise_append]
    refine ⟨?_, ih _, ?_⟩
    · rw [List.pairwise_map]
      exact (List.pairwise_lt_range (n := t.input.length)).imp (by intro a b h; omega)
    · intro a ha b hb
      obtain ⟨i, hi, rfl⟩ := List.mem_map.mp ha
      have := (outputPositionsFrom_bounds ts _ b hb).1
      have : min i (t.output.length - 1) ≤ t.output.length := by omega
      omega

theorem outputPositionsFrom_append (a b : List Resolved) : ∀ o,
    outputPositionsFrom o (a ++ b) = outputPositionsFrom o a ++ outputPositionsFrom (o + outputLength a) b := by
  induction a with
  | nil => intro o; simp [outputPositionsFrom, outputLength]
  | cons t ts ih => intro o; simp [outputPositionsFrom, ih, outputLength, Nat.add_assoc]

theorem outputPositionsFrom_at (pre post : List Resolved) (t : Resolved) (i o : Nat) (hi : i < t.input.length) :
    (outputPositionsFrom o (pre ++ t :: post))[inputLength pre + i]? =
      some (o + outputLength pre + min i (t.output.length - 1)) := by
  rw [outputPositionsFrom_append, List.getElem?_append_right (by rw [outputPositionsFrom_length]; omega),
    outputPositionsFrom_length, Nat.add_sub_cancel_left, outputPositionsFrom, List.getElem?_append_left (by simpa using hi)]
  simp [hi]

/-- **C18.** The input-to-output map has one entry per input character, the output-to-input map one per output character, and
both are non-decreasing. -/
theorem C18_length_and_order (ts : List Resolved) :
    (outputPositions ts).length = inputLength ts ∧ (inputPositions ts).length = outputLength ts ∧
    (outputPositions ts).Pairwise (· ≤ ·) ∧ (inputPositions ts).Pairwise (· ≤ ·) := by
  refine ⟨outputPositionsFrom_length ts 0, ?_, outputPositionsFrom_sorted ts 0, ?_⟩
  · rw [inputPositions_flip]
    have := outputPositionsFrom_length (ts.map Resolved.flip) 0
    simpa [outputPositions, inputLength, outputLength, Resolved.flip, Function.comp_def] using this
  · rw [inputPositions_flip]
    exact outputPositionsFrom_sorted _ 0

/-- **C18.** What the entries are: the `i`-th input character of a translation is mapped to the `i`-th character of its
output, or to the last one if there is none; and symmetrically. -/
theorem C18_entries (pre post : List Resolved) (t : Resolved) (i : Nat) :
    (i < t.input.length → (outputPositions (pre ++ t :: post))[inputLength pre + i]? =
      some (outputLength pre + min i (t.output.length - 1))) ∧
    (i < t.output.length → (inputPositions (pre ++ t :: post))[outputLength pre + i]? =
      some (inputLength pre + min i (t.input.length - 1))) := by
  constructor
  · intro hi
    have := outputPositionsFrom_at pre post t i 0 hi
    simpa [outputPositions] using this
  · intro hi
    rw [inputPositions_flip]
    have := outputPositionsFrom_at (pre.map Resolved.flip) (post.map Resolved.flip) t.flip i 0 hi
    simpa [outputPositions, inputLength, outputLength, Resolved.flip, Function.comp_def] using this

/-- **C18**, range.  Proved: an entry is a valid index of the other text if the translation it belongs to, or one after
it, has a non-empty counterpart.  Missing: entries of trailing translations with an empty counterpart, for which it is false
(`C18_out_of_range_wrong`). -/
theorem C18_range_partial (pre post : List Resolved) (t : Resolved) (i : Nat) :
    (i < t.input.length → 0 < outputLength (t :: post) → ∃ p, (outputPositions (pre ++ t :: post))[inputLength pre + i]? = some p ∧
      p < outputLength (pre ++ t :: post)) ∧
    (i < t.output.length → 0 < inputLength (t :: post) → ∃ p, (inputPositions (pre ++ t :: post))[outputLength pre + i]? = some p ∧
      p < inputLength (pre ++ t :: post)) := by
  constructor
  · intro hi h
    refine ⟨_, (C18_entries pre post t i).1 hi, ?_⟩
    simp only [outputLength, List.map_append, List.map_cons, List.sum_append, List.sum_cons] at h ⊢
    omega
  · intro hi h
    refine ⟨_, (C18_entries pre post t i).2 hi, ?_⟩
    simp only [inputLength, List.map_append, List.map_cons, List.sum_append, List.sum_cons] at h ⊢
    omega

/-- Every entry is at most the length of the other text. -/
theorem C18_at_most_end (ts : List Resolved) :
    (∀ p ∈ outputPositions ts, p ≤ outputLength ts) ∧ ∀ p ∈ inputPositions ts, p ≤ inputLength ts := by
  constructor
  · intro p hp
    have := (outputPositionsFrom_bounds ts 0 p hp).2
    omega
  · intro p hp
    rw [inputPositions_flip] at hp
    have := (outputPositionsFrom_bounds _ 0 p hp).2
    simpa [inputLength, outputLength, Resolved.flip, Function.comp_def] using this

/-- **C18** is false as stated: if the last translations of a trace have no output, their characters are mapped behind the
end of the output, although it is not empty. -/
theorem C18_out_of_range_wrong : ∃ ts : List Resolved, 0 < outputLength ts ∧ ∃ p ∈ outputPositions ts, p = outputLength ts :=
  ⟨[Resolved.new ['a'] ['x'] 1 .main none, Resolved.new ['b'] [] 1 .main none], by decide, 1, by decide, by decide⟩

/-! ## Table search -/

theorem mem_takeWhile_true {α : Type} {p : α → Bool} {x : α} : ∀ {l : List α}, x ∈ l.takeWhile p → p x = true
  | [], h => by cases h
  | a :: l, h => by
    rw [List.takeWhile_cons] at h
    split at h
    · rcases List.mem_cons.mp h with rfl | h
      · assumption
      · exact mem_takeWhile_true h
    · cases h

theorem trim_spec (ws : Char → Bool) (s : Text) : Trimmed ws s (trimText ws s) := by
  unfold trimText
  refine ⟨⟨s.takeWhile ws, ((s.dropWhile ws).reverse.takeWhile ws).reverse, ?_, ?_, ?_⟩, ?_, ?_⟩
  · rw [List.append_assoc, ← List.reverse_append, List.takeWhile_append_dropWhile, List.reverse_reverse,
      List.takeWhile_append_dropWhile]
  · intro c hc
    exact mem_takeWhile_true hc
  · intro c hc
    exact mem_takeWhile_true (List.mem_reverse.mp hc)
  · intro c hc
    -- the first character of the trimmed text is the first of `dropWhile`, unless everything is dropped
    have h1 : (s.dropWhile ws) = ((s.dropWhile ws).reverse.dropWhile ws).reverse ++
        ((s.dropWhile ws).reverse.takeWhile ws).reverse := by
      rw [← List.reverse_append, List.takeWhile_append_dropWhile, List.reverse_reverse]
    have h2 : (s.dropWhile ws).head? = some c := by
      rw [h1, List.head?_append, hc]
      rfl
    have := List.head?_dropWhile_not ws s
    rw [h2] at this
    simpa using this
  · intro c hc
    rw [List.getLast?_reverse] at hc
    have := List.head?_dropWhile_not ws (s.dropWhile ws).reverse
    rw [hc] at this
    simpa using this

theorem trimmed_unique {ws : Char → Bool} {s t t' : Text} (h : Trimmed ws s t) (h' : Trimmed ws s t') : t = t' := by
  have key : ∀ {s t : Text}, Trimmed ws s t → t = trimText ws s := by
    intro s t ht
    obtain ⟨⟨a, b, rfl, ha, hb⟩, hh, hl⟩ := ht
    unfold trimText
    have e1 : (a ++ t ++ b).dropWhile ws = (t ++ b).dropWhile ws := by
      rw [List.append_assoc, List.dropWhile_append_of_pos ha]
    rw [e1]
    cases t with
    | nil =>
      have : b.dropWhile ws = [] := by
        have := List.dropWhile_append_of_pos (p := ws) (l₁ := b) (l₂ := []) hb
        simpa using this
      simp [this]
    | cons c t =>
      have hc := hh c rfl
      rw [List.cons_append, List.dropWhile_cons_of_neg (by simp [hc]), ← List.cons_append, List.reverse_append]
      rw [List.dropWhile_append_of_pos (by intro x hx; exact hb x (List.mem_reverse.mp hx))]
      cases e : (c :: t).reverse with
      | nil => simp at e
      | cons d u =>
        have hd : ws d = false := by
          apply hl
          rw [← List.head?_reverse, e]
          rfl
        rw [List.dropWhile_cons_of_neg (by simp [hd]), ← e, List.reverse_reverse]
  rw [key h, key h']

theorem splitOnce_iff (sep : Char) (s a b : Text) : splitOnce sep s = some (a, b) ↔ s = a ++ sep :: b ∧ sep ∉ a := by
  induction s generalizing a with
  | nil => simp [splitOnce]
  | cons c cs ih =>
    simp only [splitOnce]
    split
    · rename_i hc
      subst hc
      constructor
      · intro h
        injection h with h
        injection h with h1 h2
        subst h1 h2
        simp
      · rintro ⟨h, hn⟩
        cases a with
        | nil => simp at h; simp [h]
        | cons x a => simp at h; simp [h.1] at hn
    · rename_i hc
      constructor
      · intro h
        cases e : splitOnce sep cs with
        | none => rw [e] at h; simp at h
        | some p =>
          obtain ⟨a', b'⟩ := p
          rw [e] at h
          simp at h
          obtain ⟨h1, h2⟩ := h
          subst h1 h2
          have := (ih a').mp e
          refine ⟨by rw [this.1]; rfl, ?_⟩
          intro hm
          rcases List.mem_cons.mp hm with h | h
          · exact hc h.symm
          · exact this.2 h
      · rintro ⟨h, hn⟩
        cases a with
        | nil => simp at h; exact absurd h.1 hc
        | cons x a =>
          simp at h
          obtain ⟨rfl, h2⟩ := h
          have := (ih a).mpr ⟨h2, fun hm => hn (List.mem_cons_of_mem _ hm)⟩
          rw [this]
          rfl

theorem isAsciiAlnum_iff (c : Char) : isAsciiAlnum c = c.isAlphanum := by
  unfold isAsciiAlnum Char.isAlphanum Char.isAlpha Char.isUpper Char.isLower Char.isDigit
  simp only [Char.le_def, ge_iff_le]
  rw [Bool.or_assoc, Bool.or_comm, Bool.decide_and]

theorem isAsciiGraphic_iff (c : Char) : isAsciiGraphic c = true ↔ 33 ≤ c.toNat ∧ c.toNat ≤ 126 := by
  unfold isAsciiGraphic
  simp only [Bool.and_eq_true, decide_eq_true_eq, Char.le_def, UInt32.le_iff_toNat_le]
  rfl

/-- The metadata line parser accepts exactly the metadata lines. -/
theorem metaLine_iff (ws : Char → Bool) (line k v : Text) : metaLine ws line = some (k, v) ↔ Declares ws line k v := by
  constructor
  · intro h
    unfold metaLine at h
    split at h
    · rename_i rest
      cases e : splitOnce ':' rest with
      | none => rw [e] at h; simp at h
      | some p =>
        obtain ⟨key, value⟩ := p
        rw [e] at h
        simp only at h
        split at h
        · rename_i hc
          simp only [Bool.and_eq_true, Bool.not_eq_true', List.isEmpty_eq_false_iff, List.all_eq_true] at hc
          injection h with h
          injection h with h1 h2
          subst h1 h2
          obtain ⟨e1, e2⟩ := (splitOnce_iff _ _ _ _).mp e
          refine ⟨⟨key, value, by rw [e1]; rfl, e2, trim_spec ws key, trim_spec ws value⟩, ⟨hc.1.1.1, ?_⟩, ⟨hc.1.1.2, ?_⟩⟩
          · intro c hm
            rw [← isAsciiAlnum_iff]
            exact hc.1.2 c hm
          · intro c hm
            exact (isAsciiGraphic_iff c).mp (hc.2 c hm)
        · simp at h
    · simp at h
  · rintro ⟨⟨key, value, rfl, hn, hk, hv⟩, ⟨hk1, hk2⟩, ⟨hv1, hv2⟩⟩
    have e := (splitOnce_iff ':' (key ++ ':' :: value) key value).mpr ⟨rfl, hn⟩
    have e1 := trimmed_unique (trim_spec ws key) hk
    have e2 := trimmed_unique (trim_spec ws value) hv
    simp only [metaLine, List.cons_append, e, e1, e2]
    rw [if_pos]
    simp only [Bool.and_eq_true, Bool.not_eq_true', List.isEmpty_eq_false_iff, List.all_eq_true]
    refine ⟨⟨⟨hk1, hv1⟩, ?_⟩, ?_⟩
    · intro c hm
      rw [isAsciiAlnum_iff]
      exact hk2 c hm
    · intro c hm
      exact (isAsciiGraphic_iff c).mpr (hv2 c hm)

theorem Index.get_add (index : Index) (key key' : Text × Text) (path p : Text) :
    (∃ ps, (index.add key path).get key' = some ps ∧ p ∈ ps) ↔
      (∃ ps, index.get key' = some ps ∧ p ∈ ps) ∨ (key' = key ∧ p = path) := by
  induction index with
  | nil =>
    simp only [Index.add, Index.get, List.find?_cons, List.find?_nil]
    by_cases h : key = key'
    · subst h; simp
    · have : (key == key') = false := by simp [h]
      simp only [this]
      simp
      exact fun e => absurd e.symm h
  | cons x rest ih =>
    obtain ⟨k, ps⟩ := x
    simp only [Index.get] at ih
    simp only [Index.add]
    split
    · rename_i hk
      subst hk
      simp only [Index.get, List.find?_cons]
      by_cases h : k = key'
      · subst h
        simp only [beq_self_eq_true, Option.map_some, Option.some.injEq, exists_eq_left', true_and]
        split
        · rename_i hc
          have hc : path ∈ ps := by simpa using hc
          constructor
          · exact Or.inl
          · rintro (h | rfl)
            · exact h
            · exact hc
        · simp
      · have : (k == key') = false := by simp [h]
        simp [this]
        exact fun e => absurd e.symm h
    · rename_i hk
      simp only [Index.get, List.find?_cons]
      by_cases h : k = key'
      · subst h
        simp [hk]
      · have : (k == key') = false := by simp [h]
        simp only [this]
        exact ih

/-- The files as a flat list of (path, line). -/
def fileLines (files : List (Text × List Text)) : List (Text × Text) := files.flatMap fun f => f.2.map fun l => (f.1, l)

theorem buildIndex_get (ws : Char → Bool) (files : List (Text × List Text)) (key : Text × Text) (p : Text) :
    (∃ ps, (buildIndex ws files).get key = some ps ∧ p ∈ ps) ↔
      ∃ lines, (p, lines) ∈ files ∧ ∃ line ∈ lines, metaLine ws line = some key := by
  have inner : ∀ (path : Text) (lines : List Text) (index : Index),
      (∃ ps, (lines.foldl (fun index line => match metaLine ws line with
        | some key => index.add key path
        | none => index) index).get key = some ps ∧ p ∈ ps) ↔
      (∃ ps, index.get key = some ps ∧ p ∈ ps) ∨ (p = path ∧ ∃ line ∈ lines, metaLine ws line = some key) := by
    intro path lines
    induction lines with
    | nil => intro index; simp
    | cons l ls ih =>
      intro index
      rw [List.foldl_cons, ih]
      cases e : metaLine ws l with
      | none =>
        simp only [List.mem_cons, exists_eq_or_imp, e, reduceCtorEq, false_or]
      | some k =>
        simp only [Index.get_add, List.mem_cons, exists_eq_or_imp, e, Option.some.injEq]
        constructor
        · rintro ((h | ⟨h1, h2⟩) | ⟨h1, h2⟩)
          · exact Or.inl h
          · exact Or.inr ⟨h2, Or.inl h1.symm⟩
          · exact Or.inr ⟨h1, Or.inr h2⟩
        · rintro (h | ⟨h1, h2 | h2⟩)
          · exact Or.inl (Or.inl h)
          · exact Or.inl (Or.inr ⟨h2.symm, h1⟩)
          · exact Or.inr ⟨h1, h2⟩
  have outer : ∀ (files : List (Text × List Text)) (index : Index),
      (∃ ps, (files.foldl (fun index f => f.2.foldl (fun index line => match metaLine ws line with
        | some key => index.add key f.1
        | none => index) index) index).get key = some ps ∧ p ∈ ps) ↔
      (∃ ps, index.get key = some ps ∧ p ∈ ps) ∨ ∃ lines, (p, lines) ∈ files ∧ ∃ line ∈ lines, metaLine ws line = some key := by
    intro files
    induction files with
    | nil => intro index; simp
    | cons f fs ih =>
      intro index
      rw [List.foldl_cons, ih, inner]
      obtain ⟨path, lines⟩ := f
      simp only [List.mem_cons, Prod.mk.injEq]
      constructor
      · rintro ((h | ⟨rfl, h⟩) | ⟨ls, h, h'⟩)
        · exact Or.inl h
        · exact Or.inr ⟨lines, Or.inl ⟨rfl, rfl⟩, h⟩
        · exact Or.inr ⟨ls, Or.inr h, h'⟩
      · rintro (h | ⟨ls, ⟨rfl, rfl⟩ | h, h'⟩)
        · exact Or.inl (Or.inl h)
        · exact Or.inl (Or.inr ⟨rfl, h'⟩)
        · exact Or.inr ⟨ls, h, h'⟩
  refine (outer files []).trans ⟨?_, Or.inr⟩
  rintro (⟨ps, h, -⟩ | h)
  · simp [Index.get] at h
  · exact h

/-- `findTables` on an index, for a non-empty query. -/
theorem findTables_iff (index : Index) (query : List (Text × Text)) (hq : query ≠ []) :
    ∃ result, findTables index query = .ok result ∧
      ∀ p, p ∈ result ↔ ∀ kv ∈ query, ∃ ps, index.get kv = some ps ∧ p ∈ ps := by
  unfold findTables
  simp only
  split
  · rename_i h
    refine ⟨[], rfl, ?_⟩
    intro p
    simp only [List.any_eq_true, List.mem_map, Option.isNone_iff_eq_none] at h
    obtain ⟨x, ⟨kv, hkv, rfl⟩, hn⟩ := h
    constructor
    · intro h; cases h
    · intro h
      obtain ⟨ps, e, -⟩ := h kv hkv
      rw [hn] at e
      cases e
  · rename_i h
    have hall : ∀ kv ∈ query, ∃ ps, index.get kv = some ps := by
      intro kv hkv
      cases e : index.get kv with
      | some ps => exact ⟨ps, rfl⟩
      | none =>
        exfalso
        apply h
        simp only [List.any_eq_true, List.mem_map, Option.isNone_iff_eq_none]
        exact ⟨none, ⟨kv, hkv, e⟩, rfl⟩
    have hmem : ∀ (q : List (Text × Text)), (∀ kv ∈ q, ∃ ps, index.get kv = some ps) → ∀ p : Text,
        (∀ s ∈ (q.map index.get).filterMap id, p ∈ s) ↔ ∀ kv ∈ q, ∃ ps, index.get kv = some ps ∧ p ∈ ps := by
      intro q hq p
      constructor
      · intro hs kv hkv
        obtain ⟨ps, e⟩ := hq kv hkv
        exact ⟨ps, e, hs ps (List.mem_filterMap.mpr ⟨some ps, List.mem_map.mpr ⟨kv, hkv, e⟩, rfl⟩)⟩
      · intro hk s hs
        obtain ⟨o, ho, e⟩ := List.mem_filterMap.mp hs
        obtain ⟨kv, hkv, rfl⟩ := List.mem_map.mp ho
        obtain ⟨ps, e', hp⟩ := hk kv hkv
        have e : index.get kv = some s := e
        rw [e'] at e
        injection e with e
        exact e ▸ hp
    cases e : (query.map index.get).filterMap id with
    | nil =>
      exfalso
      cases query with
      | nil => exact hq rfl
      | cons kv q =>
        obtain ⟨ps, e'⟩ := hall kv (List.mem_cons_self ..)
        simp [e'] at e
    | cons first others =>
      refine ⟨_, rfl, ?_⟩
      intro p
      rw [← hmem query hall p, e]
      simp only [List.mem_filter, List.all_eq_true, List.contains_iff_mem, List.mem_cons, forall_eq_or_imp]

/-- **C38.** Searching with a non-empty query returns exactly the tables that declare every key and value of the query. -/
theorem C38_search_partial (ws : Char → Bool) (files : List (Text × List Text)) (query : List (Text × Text)) (hq : query ≠ []) :
    ∃ result, findTables (buildIndex ws files) query = .ok result ∧
      ∀ p, p ∈ result ↔ ∀ kv ∈ query, ∃ lines, (p, lines) ∈ files ∧ ∃ line ∈ lines, Declares ws line kv.1 kv.2 := by
  obtain ⟨result, e, h⟩ := findTables_iff (buildIndex ws files) query hq
  refine ⟨result, e, fun p => ?_⟩
  rw [h p]
  constructor
  · intro hk kv hkv
    obtain ⟨lines, hm, line, hl, e⟩ := (buildIndex_get ws files kv p).mp (hk kv hkv)
    exact ⟨lines, hm, line, hl, (metaLine_iff ws line kv.1 kv.2).mp e⟩
  · intro hk kv hkv
    obtain ⟨lines, hm, line, hl, e⟩ := hk kv hkv
    exact (buildIndex_get ws files kv p).mpr ⟨lines, hm, line, hl, (metaLine_iff ws line kv.1 kv.2).mpr e⟩

/-- **C38** is false for the empty query, which every table satisfies: the search panics. -/
theorem C38_empty_query_wrong (index : Index) : findTables index [] = .error .panic := rfl

set_option maxRecDepth 10000 in
/-- Non-vacuity: two tables, one of which carries both keys. -/
example : findTables (buildIndex (· == ' ') [("a".toList, ["#+language: de".toList, "#+grade:1".toList]),
    ("b".toList, ["#+language:de".toList, "letter a 1".toList])]) [("language".toList, "de".toList), ("grade".toList, "1".toList)]
    = .ok ["a".toList] := by rfl

end Louis
