import Verif.Model.Constrain
import Verif.Props.Spans

/-!
# C24: hyphenation points
-/

namespace Louis

open Regexp (Fault)

/-! ## Specification -/

/-- Some pattern of the table matches a piece of `text` and gives the gap before character `g` of `text` the value `v`. -/
def GivesValue (h : Hyphenation) (text : Text) (g v : Nat) : Prop :=
  ∃ a piece b tally k, text = a ++ piece ++ b ∧ piece ≠ [] ∧ h.get piece = some tally ∧ tally[k]? = some v ∧ g = a.length + k

/-- `s` is the highest value of a set (0 if the set is empty). -/
def IsTop (s : Nat) (P : Nat → Prop) : Prop := (s = 0 ∨ P s) ∧ ∀ v, P v → v ≤ s

/-- Every pattern has one value per gap around its letters. -/
def Hyphenation.Wf (h : Hyphenation) : Prop := ∀ letters tally, h.get letters = some tally → tally.length = letters.length + 1

/-- The gap after character `i` of `word` is a hyphenation point. -/
def HyphenPoint (h : Hyphenation) (word : Text) (i : Nat) : Prop :=
  h.leftMin ≤ i + 1 ∧ i + 1 + h.rightMin ≤ word.length ∧
    ∃ s, IsTop s (GivesValue h ('.' :: word ++ ['.']) (i + 2)) ∧ s % 2 = 1

/-! ## Scores -/

theorem IsTop.unique {s s' : Nat} {P : Nat → Prop} (h : IsTop s P) (h' : IsTop s' P) : s = s' := by
  apply Nat.le_antisymm
  · rcases h.1 with h0 | h1
    · omega
    · exact h'.2 s h1
  · rcases h'.1 with h0 | h1
    · omega
    · exact h.2 s' h1

theorem IsTop.congr {s : Nat} {P Q : Nat → Prop} (h : IsTop s P) (e : ∀ v, P v ↔ Q v) : IsTop s Q :=
  ⟨h.1.imp id (e s).1, fun v hv => h.2 v ((e v).2 hv)⟩

/-- Every score is the highest value in `P`. -/
def Scores (scores : List Nat) (P : Nat → Nat → Prop) : Prop := ∀ g s, scores[g]? = some s → IsTop s (P g)

theorem Scores.congr {scores : List Nat} {P Q : Nat → Nat → Prop} (h : Scores scores P) (e : ∀ g v, P g v ↔ Q g v) : Scores scores Q :=
  fun g s hs => (h g s hs).congr (e g)

theorem raise_spec : ∀ (vs : List Nat) (scores : List Nat) (gap : Nat) (P : Nat → Nat → Prop), Scores scores P →
    gap + vs.length ≤ scores.length →
    ∃ out, raiseScores scores gap vs = .ok out ∧ out.length = scores.length ∧
      Scores out (fun g v => P g v ∨ ∃ k, vs[k]? = some v ∧ g = gap + k) := by
  intro vs
  induction vs with
  | nil =>
    intro scores gap P h _
    exact ⟨scores, rfl, rfl, h.congr (by simp)⟩
  | cons v vs ih =>
    intro scores gap P h hl
    simp only [List.length_cons] at hl
    have hg : scores[gap]? = some scores[gap] := List.getElem?_eq_getElem (by omega)
    have h1 : Scores (if v > scores[gap] then scores.set gap v else scores) (fun g w => P g w ∨ (g = gap ∧ w = v)) := by
      intro g s hs
      by_cases hgg : g = gap
      · subst hgg
        have ht := h g _ hg
        split at hs
        · rename_i hv
          rw [List.getElem?_set_self (by omega)] at hs
          cases hs
          refine ⟨.inr (.inr ⟨rfl, rfl⟩), ?_⟩
          rintro w (hw | ⟨-, rfl⟩)
          · have := ht.2 w hw; omega
          · omega
        · rename_i hv
          rw [hg] at hs
          cases hs
          refine ⟨ht.1.imp id .inl, ?_⟩
          rintro w (hw | ⟨-, rfl⟩)
          · exact ht.2 w hw
          · omega
      · have hs' : scores[g]? = some s := by
          split at hs
          · rwa [List.getElem?_set_ne (Ne.symm hgg)] at hs
          · exact hs
        exact (h g s hs').congr (fun w => by simp [hgg])
    have hlen : (if v > scores[gap] then scores.set gap v else scores).length = scores.length := by
      split <;> simp
    obtain ⟨out, e1, e2, e3⟩ := ih _ (gap + 1) _ h1 (by omega)
    refine ⟨out, ?_, by omega, ?_⟩
    · rw [raiseScores, hg]; exact e1
    · refine e3.congr ?_
      intro g w
      constructor
      · rintro ((hp | ⟨rfl, rfl⟩) | ⟨k, hk, rfl⟩)
        · exact .inl hp
        · exact .inr ⟨0, rfl, rfl⟩
        · exact .inr ⟨k + 1, by simpa using hk, by omega⟩
      · rintro (hp | ⟨k, hk, rfl⟩)
        · exact .inl (.inl hp)
        · cases k with
          | zero => simp at hk; exact .inl (.inr ⟨rfl, hk.symm⟩)
          | succ k => exact .inr ⟨k, by simpa using hk, by omega⟩

theorem ends_spec {h : Hyphenation} (wf : h.Wf) (start : Nat) : ∀ (rest : Text) (done : Text) (scores : List Nat)
    (P : Nat → Nat → Prop), Scores scores P → start + done.length + rest.length + 1 ≤ scores.length →
    ∃ out, scoreEnds h start done rest scores = .ok out ∧ out.length = scores.length ∧
      Scores out (fun g v => P g v ∨ ∃ x y tally k, rest = x ++ y ∧ x ≠ [] ∧ h.get (done ++ x) = some tally ∧
        tally[k]? = some v ∧ g = start + k) := by
  intro rest
  induction rest with
  | nil =>
    intro done scores P hs _
    refine ⟨scores, rfl, rfl, hs.congr ?_⟩
    intro g v
    constructor
    · exact .inl
    · rintro (hp | ⟨x, y, tally, k, e, hx, -⟩)
      · exact hp
      · simp at e; exact absurd e.1 hx
  | cons c rest ih =>
    intro done scores P hs hl
    simp only [List.length_cons] at hl
    have hfirst : ∃ mid, (match h.get (done ++ [c]) with
        | some tally => raiseScores scores start tally
        | none => .ok scores) = .ok mid ∧ mid.length = scores.length ∧
        Scores mid (fun g v => P g v ∨ ∃ tally k, h.get (done ++ [c]) = some tally ∧ tally[k]? = some v ∧ g = start + k) := by
      cases hget : h.get (done ++ [c]) with
      | none =>
        exact ⟨scores, rfl, rfl, hs.congr (by simp)⟩
      | some tally =>
        have hw := wf _ _ hget
        simp only [List.length_append, List.length_singleton] at hw
        obtain ⟨mid, e1, e2, e3⟩ := raise_spec tally scores start P hs (by omega)
        exact ⟨mid, e1, e2, e3.congr (by simp)⟩
    obtain ⟨mid, e1, e2, e3⟩ := hfirst
    obtain ⟨out, f1, f2, f3⟩ := ih (done ++ [c]) mid _ e3 (by simp only [List.length_append, List.length_singleton]; omega)
    refine ⟨out, ?_, by omega, f3.congr ?_⟩
    · rw [scoreEnds]
      split
      · rename_i e he
        cases he.symm.trans e1
      · rename_i m he
        cases he.symm.trans e1
        exact f1
    · intro g v
      constructor
      · rintro ((hp | ⟨tally, k, h1, h2, h3⟩) | ⟨x, y, tally, k, rfl, hx, h1, h2, h3⟩)
        · exact .inl hp
        · exact .inr ⟨[c], rest, tally, k, rfl, by simp, h1, h2, h3⟩
        · exact .inr ⟨c :: x, y, tally, k, rfl, by simp, by simpa using h1, h2, h3⟩
      · rintro (hp | ⟨x, y, tally, k, e, hx, h1, h2, h3⟩)
        · exact .inl (.inl hp)
        · cases x with
          | nil => exact absurd rfl hx
          | cons c' x =>
            simp only [List.cons_append, List.cons.injEq] at e
            obtain ⟨rfl, rfl⟩ := e
            by_cases hxe : x = []
            · subst hxe
              exact .inl (.inr ⟨tally, k, h1, h2, h3⟩)
            · exact .inr ⟨x, y, tally, k, rfl, hxe, by simpa using h1, h2, h3⟩

theorem starts_spec {h : Hyphenation} (wf : h.Wf) : ∀ (text : Text) (start : Nat) (scores : List Nat)
    (P : Nat → Nat → Prop), Scores scores P → start + text.length + 1 ≤ scores.length →
    ∃ out, scoreStarts h start text scores = .ok out ∧ out.length = scores.length ∧
      Scores out (fun g v => P g v ∨ ∃ a x b tally k, text = a ++ x ++ b ∧ x ≠ [] ∧ h.get x = some tally ∧
        tally[k]? = some v ∧ g = start + a.length + k) := by
  intro text
  induction text with
  | nil =>
    intro start scores P hs _
    refine ⟨scores, rfl, rfl, hs.congr ?_⟩
    intro g v
    constructor
    · exact .inl
    · rintro (hp | ⟨a, x, b, tally, k, e, hx, -⟩)
      · exact hp
      · simp at e; exact absurd e.2.1 hx
  | cons c rest ih =>
    intro start scores P hs hl
    simp only [List.length_cons] at hl
    obtain ⟨mid, e1, e2, e3⟩ := ends_spec wf start (c :: rest) [] scores P hs (by simp; omega)
    obtain ⟨out, f1, f2, f3⟩ := ih (start + 1) mid _ e3 (by omega)
    refine ⟨out, ?_, by omega, f3.congr ?_⟩
    · rw [scoreStarts, e1]; exact f1
    · intro g v
      constructor
      · rintro ((hp | ⟨x, y, tally, k, h0, hx, h1, h2, h3⟩) | ⟨a, x, b, tally, k, rfl, hx, h1, h2, h3⟩)
        · exact .inl hp
        · exact .inr ⟨[], x, y, tally, k, by simpa using h0, hx, by simpa using h1, h2, by simpa using h3⟩
        · exact .inr ⟨c :: a, x, b, tally, k, rfl, hx, h1, h2, by simp; omega⟩
      · rintro (hp | ⟨a, x, b, tally, k, e, hx, h1, h2, h3⟩)
        · exact .inl (.inl hp)
        · cases a with
          | nil => exact .inl (.inr ⟨x, b, tally, k, by simpa using e, hx, by simpa using h1, h2, by simpa using h3⟩)
          | cons c' a =>
            simp only [List.cons_append, List.cons.injEq] at e
            exact .inr ⟨a, x, b, tally, k, e.2, hx, h1, h2, by simp at h3; omega⟩

/-- **C24.** For every table whose patterns have one value per gap and every word the hyphenator answers, with one flag per
gap inside the word; the flag of a gap is set exactly if the gap is at least `left_min` characters from the start and
`right_min` from the end and the highest value any matching pattern gives it is odd. -/
theorem C24_break_points (h : Hyphenation) (wf : h.Wf) (word : Text) :
    ∃ flags, h.breakPoints word = .ok flags ∧ flags.length = word.length - 1 ∧
      ∀ i, i + 1 < word.length → (flags[i]? = some true ↔ HyphenPoint h word i) := by
  unfold Hyphenation.breakPoints
  by_cases h2 : word.length < 2
  · exact ⟨[], by simp [h2], by simp; omega, by intro i hi; omega⟩
  simp only [if_neg h2]
  by_cases h3 : word.length < h.leftMin + h.rightMin
  · refine ⟨List.replicate (word.length - 1) false, by simp [h3], by simp, ?_⟩
    intro i hi
    rw [List.getElem?_replicate]
    constructor
    · intro e; split at e <;> simp at e
    · rintro ⟨a, b, -⟩; omega
  simp only [if_neg h3]
  have h0 : Scores (List.replicate (('.' :: word ++ ['.']).length + 1) 0) (fun _ _ => False) := by
    intro g s hs
    rw [List.getElem?_replicate] at hs
    split at hs
    · cases hs; exact ⟨.inl rfl, fun v hv => hv.elim⟩
    · cases hs
  obtain ⟨out, e1, e2, e3⟩ := starts_spec wf ('.' :: word ++ ['.']) 0 _ _ h0 (by simp)
  rw [e1]
  refine ⟨_, rfl, by simp, ?_⟩
  intro i hi
  have hout : out.length = word.length + 3 := by rw [e2]; simp
  have hget : out[i + 2]? = some out[i + 2] := List.getElem?_eq_getElem (by omega)
  have htop : IsTop out[i + 2] (GivesValue h ('.' :: word ++ ['.']) (i + 2)) := by
    refine (e3 _ _ hget).congr ?_
    intro v
    unfold GivesValue
    constructor
    · rintro (hf | ⟨a, x, b, tally, k, e, hx, h4, h5, h6⟩)
      · exact hf.elim
      · exact ⟨a, x, b, tally, k, e, hx, h4, h5, by omega⟩
    · rintro ⟨a, x, b, tally, k, e, hx, h4, h5, h6⟩
      exact .inr ⟨a, x, b, tally, k, e, hx, h4, h5, by omega⟩
  rw [List.getElem?_map, List.getElem?_range (by omega)]
  simp only [Option.map_some, Option.some.injEq, Bool.and_eq_true, decide_eq_true_eq, hget, Option.getD_some]
  unfold HyphenPoint
  constructor
  · rintro ⟨⟨h4, h5⟩, h6⟩
    exact ⟨h5, by omega, _, htop, by omega⟩
  · rintro ⟨h5, h6, s, hs, hodd⟩
    have := htop.unique hs
    exact ⟨⟨by omega, h5⟩, by omega⟩

/-! ## Patterns -/

/-- The letters of a pattern line, and the value of a gap: the last digit among the digits between two letters (0 if there is
none). -/
def gapValue (digits : Text) : Nat := (digits.getLast?.bind digit10).getD 0

/-- `line` consists of digits `ds₀`, a letter `c₁`, digits `ds₁`, … -/
inductive PatternLine : Text → Text → List Text → Prop where
  | last {ds} : (∀ c ∈ ds, digit10 c ≠ none) → PatternLine ds [] [ds]
  | letter {ds c line letters gaps} : (∀ c ∈ ds, digit10 c ≠ none) → digit10 c = none → PatternLine line letters gaps →
    PatternLine (ds ++ c :: line) (c :: letters) (ds :: gaps)

theorem patternLine_exists (line : Text) : ∃ letters gaps, PatternLine line letters gaps := by
  induction line with
  | nil => exact ⟨[], [[]], .last (by simp)⟩
  | cons c line ih =>
    obtain ⟨letters, gaps, h⟩ := ih
    cases hd : digit10 c with
    | none => exact ⟨c :: letters, [] :: gaps, .letter (ds := []) (by simp) hd h⟩
    | some d =>
      cases h with
      | last hds => exact ⟨[], [c :: line], .last (by simpa [hd] using hds)⟩
      | @letter ds c' line' letters' gaps' hds hc h' =>
        exact ⟨c' :: letters', (c :: ds) :: gaps', .letter (ds := c :: ds) (by simpa [hd] using hds) hc h'⟩

theorem patternLoop_digits : ∀ (ds : Text), (∀ c ∈ ds, digit10 c ≠ none) → ∀ (line letters : Text) (v : Nat) (tally : List Nat),
    patternLoop (ds ++ line) letters (v :: tally) =
      patternLoop line letters ((if ds = [] then v else gapValue ds) :: tally) := by
  intro ds
  induction ds with
  | nil => intro _ line letters v tally; simp
  | cons c ds ih =>
    intro h line letters v tally
    cases hd : digit10 c with
    | none => exact absurd hd (h c (by simp))
    | some d =>
      rw [List.cons_append, patternLoop, hd]
      simp only [List.tail_cons]
      rw [ih (fun x hx => h x (by simp [hx]))]
      simp only [reduceCtorEq, if_false]
      by_cases hds : ds = []
      · subst hds; simp [gapValue, hd]
      · simp only [if_neg hds, gapValue, List.getLast?_cons]
        cases hl : ds.getLast? with
        | none => exact absurd (List.getLast?_eq_none_iff.1 hl) hds
        | some x => simp

theorem patternLoop_spec {line letters : Text} {gaps : List Text} (h : PatternLine line letters gaps) :
    ∀ (done : Text) (tally : List Nat), patternLoop line done (0 :: tally) =
      (done ++ letters, tally.reverse ++ gaps.map gapValue) := by
  induction h with
  | @last ds hds =>
    intro done tally
    have := patternLoop_digits ds hds [] done 0 tally
    rw [List.append_nil] at this
    rw [this]
    by_cases h : ds = []
    · subst h; simp [patternLoop, gapValue]
    · simp [patternLoop, h]
  | @letter ds c line letters gaps hds hc h ih =>
    intro done tally
    rw [patternLoop_digits ds hds, patternLoop, hc]
    simp only
    rw [ih]
    by_cases h : ds = []
    · subst h; simp [gapValue]
    · simp [h]

/-- **C24**, patterns: a pattern line is accepted exactly if it gives some gap a value other than 0; the pattern then has the
letters of the line in order, and the value of every gap is the digit written there (0 if none).  In particular it has one
value more than letters, as `C24_break_points` asks. -/
theorem C24_pattern_values (line letters : Text) (gaps : List Text) (h : PatternLine line letters gaps) :
    parsePattern line = (if (∃ g ∈ gaps, gapValue g ≠ 0) then some (letters, gaps.map gapValue) else none) ∧
      gaps.length = letters.length + 1 := by
  refine ⟨?_, ?_⟩
  · have e0 : patternLoop line [] [0] = (letters, gaps.map gapValue) := by simpa using patternLoop_spec h [] []
    simp only [parsePattern, e0]
    have : (gaps.map gapValue).all (· == 0) = true ↔ ¬ ∃ g ∈ gaps, gapValue g ≠ 0 := by
      simp [List.all_eq_true]
    by_cases hx : ∃ g ∈ gaps, gapValue g ≠ 0
    · rw [if_pos hx, if_neg (fun h' => this.1 h' hx)]
    · rw [if_neg hx, if_pos (this.2 hx)]
  · induction h with
    | last => rfl
    | letter _ _ _ ih => simp [ih]

theorem parsePattern_wf {line letters : Text} {tally : List Nat} (h : parsePattern line = some (letters, tally)) :
    tally.length = letters.length + 1 := by
  obtain ⟨ls, gaps, hp⟩ := patternLine_exists line
  obtain ⟨h1, h2⟩ := C24_pattern_values line ls gaps hp
  rw [h1] at h
  split at h
  · cases h; simpa using h2
  · cases h

/-! ## The dictionary file -/

theorem wf_push {h : Hyphenation} (wf : h.Wf) {letters : Text} {tally : List Nat} (hl : tally.length = letters.length + 1) :
    Hyphenation.Wf { h with patterns := (letters, tally) :: h.patterns } := by
  intro l t e
  simp only [Hyphenation.get, List.find?_cons] at e
  split at e
  · rename_i hb
    simp only [beq_iff_eq] at hb
    simp only [Option.map_some, Option.some.injEq] at e
    subst hb; subst e
    exact hl
  · exact wf l t e

theorem dicLine_wf {h h' : Hyphenation} {first : Bool} {raw : Text} (wf : h.Wf) (e : dicLine h first raw = .ok h') : h'.Wf := by
  unfold dicLine at e
  simp only at e
  repeat' split at e
  all_goals cases e
  all_goals first
    | exact wf
    | (rename_i p hp _; exact wf_push wf (parsePattern_wf hp))
    | (rename_i p hp; exact wf_push wf (parsePattern_wf hp))

/-- **C24**, files: every dictionary file that is accepted gives a table as `C24_break_points` asks for. -/
theorem C24_accepted_file_wf (lines : List Text) (h : Hyphenation) (e : parseDic lines = .ok h) : h.Wf := by
  have : ∀ (ls : List Text) (g h : Hyphenation) (first : Bool), g.Wf → dicLoop g first ls = .ok h → h.Wf := by
    intro ls
    induction ls with
    | nil => intro g h first wf e; cases e; exact wf
    | cons l ls ih =>
      intro g h first wf e
      rw [dicLoop] at e
      split at e
      · cases e
      · rename_i g' hg
        exact ih g' h false (dicLine_wf wf hg) e
  exact this lines _ h true (by intro l t e; simp [Hyphenation.get] at e) e

/-- The hyphenation points of every word under every accepted file. -/
theorem C24_accepted_file (lines : List Text) (h : Hyphenation) (e : parseDic lines = .ok h) (word : Text) :
    ∃ flags, h.breakPoints word = .ok flags ∧ flags.length = word.length - 1 ∧
      ∀ i, i + 1 < word.length → (flags[i]? = some true ↔ HyphenPoint h word i) :=
  C24_break_points h (C24_accepted_file_wf lines h e) word

def demoDic : List Text :=
  ["UTF-8".toList, "% comment".toList, "LEFTHYPHENMIN 2".toList, "RIGHTHYPHENMIN 2".toList, "a1b".toList, ".ab2c".toList,
    "b3c".toList, "".toList, "c4d".toList, "1d".toList]

/-- Value 1 between `a` and `b` (but too close to the start), 3 (over 2) between `b` and `c`, 4 (over 1) between `c` and `d`. -/
example : (match parseDic demoDic with
    | .ok h => (match h.breakPoints "abcdab".toList with | .ok f => some f | .error _ => none)
    | .error _ => none) = some [false, true, false, false, false] := by decide +kernel

/-! ## Hyphenation points of a text -/

/-- Character `p` of the text is in the word `input[s..e)`, a maximal run of letters, and the gap after it is a hyphenation
point of that word. -/
def BreakAfter (h : Hyphenation) (letters : List Char) (input : Text) (p : Nat) : Prop :=
  ∃ a word b, input = a ++ word ++ b ∧ (∀ c ∈ word, c ∈ letters) ∧ (∀ c, a.getLast? = some c → c ∉ letters) ∧
    (∀ c, b.head? = some c → c ∉ letters) ∧ ∃ i, p = a.length + i ∧ i + 1 < word.length ∧ HyphenPoint h word i

theorem wordBreaks_spec {h : Hyphenation} (wf : h.Wf) (start : Nat) (word : Text) :
    ∃ ps, wordBreaks h start word = .ok ps ∧ ∀ p, p ∈ ps ↔ ∃ i, p = start + i ∧ i + 1 < word.length ∧ HyphenPoint h word i := by
  obtain ⟨flags, e1, e2, e3⟩ := C24_break_points h wf word
  unfold wordBreaks
  rw [e1]
  refine ⟨_, rfl, ?_⟩
  intro p
  simp only [List.mem_filterMap, List.mem_range]
  constructor
  · rintro ⟨i, hi, h'⟩
    split at h'
    · rename_i hf
      cases h'
      have : i + 1 < word.length := by omega
      exact ⟨i, rfl, this, (e3 i this).1 hf⟩
    · cases h'
  · rintro ⟨i, rfl, hi, hp⟩
    exact ⟨i, by omega, by rw [if_pos ((e3 i hi).2 hp)]⟩

/-- The maximal run of letters around a position is unique. -/
theorem hyphenLoop_spec {h : Hyphenation} (wf : h.Wf) (letters : List Char) : ∀ (rest a word : Text),
    (∀ c ∈ word, c ∈ letters) → (∀ c, a.getLast? = some c → c ∉ letters) →
    ∃ ps, hyphenLoop h letters (a.length + word.length) word rest = .ok ps ∧
      ∀ p, p ∈ ps ↔ ∃ a' w' b', a ++ word ++ rest = a' ++ w' ++ b' ∧ a.length ≤ a'.length ∧ (∀ c ∈ w', c ∈ letters) ∧
        (∀ c, a'.getLast? = some c → c ∉ letters) ∧ (∀ c, b'.head? = some c → c ∉ letters) ∧
        ∃ i, p = a'.length + i ∧ i + 1 < w'.length ∧ HyphenPoint h w' i := by
  -- a run that starts at or after `a` in a text `a ++ word ++ rest` whose `word` is maximal is `word` or lies in `rest`
  have key : ∀ (a word rest : Text), (∀ c ∈ word, c ∈ letters) → (∀ c, a.getLast? = some c → c ∉ letters) →
      (∀ c, rest.head? = some c → c ∉ letters) → ∀ a' w' b', a ++ word ++ rest = a' ++ w' ++ b' → a.length ≤ a'.length →
      (∀ c ∈ w', c ∈ letters) → (∀ c, a'.getLast? = some c → c ∉ letters) → (∀ c, b'.head? = some c → c ∉ letters) → w' ≠ [] →
      (a' = a ∧ w' = word) ∨ (a ++ word).length < a'.length := by
    intro a word rest hw ha hr a' w' b' e hle hw' ha' hb' hne
    by_cases hlt : (a ++ word).length < a'.length
    · exact .inr hlt
    left
    simp only [List.length_append, Nat.not_lt] at hlt
    have hpre : a' = a ++ a'.drop a.length := by
      have h1 : a = (a' ++ w' ++ b').take a.length := by rw [← e]; simp
      rw [List.append_assoc, List.take_append_of_le_length hle] at h1
      conv => lhs; rw [← List.take_append_drop a.length a', ← h1]
    obtain ⟨x, hx⟩ : ∃ x, x = a'.drop a.length := ⟨_, rfl⟩
    rw [← hx] at hpre
    subst hpre
    have e' : word ++ rest = x ++ w' ++ b' := by
      simp only [List.append_assoc] at e
      have := List.append_cancel_left e
      simpa using this
    have hxl : x.length ≤ word.length := by simp at hlt; omega
    have hwx : word = x ++ word.drop x.length := by
      have h1 : x = (word ++ rest).take x.length := by rw [e']; simp
      rw [List.take_append_of_le_length hxl] at h1
      conv => lhs; rw [← List.take_append_drop x.length word, ← h1]
    have hxe : x = [] := by
      rcases List.eq_nil_or_concat x with hx0 | ⟨y, c, hy⟩
      · exact hx0
      · exfalso
        have h1 : c ∈ letters := hw c (by rw [hwx, hy]; simp)
        exact ha' c (by rw [hy]; simp) h1
    subst hxe
    simp only [List.append_nil, List.nil_append, true_and] at *
    have hlen : ∀ (u v s t : Text), u ++ s = v ++ t → (∀ c ∈ v, c ∈ letters) → (∀ c, s.head? = some c → c ∉ letters) →
        ¬ u.length < v.length := by
      intro u v s t e hv hs hlt
      have h1 : v[u.length]? = s.head? := by
        have h2 : (u ++ s)[u.length]? = (v ++ t)[u.length]? := by rw [e]
        rw [List.getElem?_append_right (Nat.le_refl _), Nat.sub_self, List.getElem?_append_left hlt] at h2
        rw [List.head?_eq_getElem?]; exact h2.symm
      have h3 : v[u.length]? = some v[u.length] := List.getElem?_eq_getElem hlt
      rw [h3] at h1
      exact hs _ h1.symm (hv _ (List.getElem_mem hlt))
    have l1 := hlen word w' rest b' e' hw' hr
    have l2 := hlen w' word b' rest e'.symm hw hb'
    exact (List.append_inj e' (by omega)).1.symm
  intro rest
  induction rest with
  | nil =>
    intro a word hw ha
    rw [hyphenLoop]
    by_cases he : word = []
    · subst he
      refine ⟨[], by simp, ?_⟩
      intro p
      simp only [List.not_mem_nil, false_iff]
      rintro ⟨a', w', b', e, hle, -, -, -, i, -, hi, -⟩
      have := congrArg List.length e
      simp at this
      omega
    · rw [if_neg he]
      obtain ⟨ps, e1, e2⟩ := wordBreaks_spec wf a.length word
      refine ⟨ps, by rw [show a.length + word.length - word.length = a.length by omega]; exact e1, ?_⟩
      intro p
      rw [e2]
      constructor
      · rintro ⟨i, rfl, hi, hp⟩
        exact ⟨a, word, [], by simp, Nat.le_refl _, hw, ha, by simp, i, rfl, hi, hp⟩
      · rintro ⟨a', w', b', e, hle, hw', ha', hb', i, rfl, hi, hp⟩
        have hne : w' ≠ [] := by rintro rfl; simp at hi
        rcases key a word [] hw ha (by simp) a' w' b' e hle hw' ha' hb' hne with ⟨rfl, rfl⟩ | hlt
        · exact ⟨i, rfl, hi, hp⟩
        · have := congrArg List.length e
          simp at this hlt
          omega
  | cons c rest ih =>
    intro a word hw ha
    rw [hyphenLoop]
    by_cases hc : letters.contains c = true
    · rw [if_pos hc]
      have hc' : c ∈ letters := by simpa using hc
      obtain ⟨ps, e1, e2⟩ := ih a (word ++ [c]) (by
        intro x hx
        rcases List.mem_append.1 hx with hx | hx
        · exact hw x hx
        · simp at hx; subst hx; exact hc') ha
      refine ⟨ps, by simpa [Nat.add_assoc] using e1, ?_⟩
      intro p
      rw [e2]
      simp
    · rw [if_neg hc]
      have hc' : c ∉ letters := by simpa using hc
      obtain ⟨qs, f1, f2⟩ := ih (a ++ word ++ [c]) [] (by simp) (by
        intro x hx; simp at hx; subst hx; exact hc')
      simp only [List.length_append, List.length_singleton, List.length_nil, Nat.add_zero] at f1
      have hrest : ∀ (p : Nat), (∃ a' w' b', a ++ word ++ c :: rest = a' ++ w' ++ b' ∧ a.length ≤ a'.length ∧ (∀ c ∈ w', c ∈ letters) ∧
        (∀ c, a'.getLast? = some c → c ∉ letters) ∧ (∀ c, b'.head? = some c → c ∉ letters) ∧
        ∃ i, p = a'.length + i ∧ i + 1 < w'.length ∧ HyphenPoint h w' i) ↔
        (∃ i, p = a.length + i ∧ i + 1 < word.length ∧ HyphenPoint h word i) ∨ p ∈ qs := by
        intro p
        rw [f2]
        constructor
        · rintro ⟨a', w', b', e, hle, hw', ha', hb', i, rfl, hi, hp⟩
          have hne : w' ≠ [] := by rintro rfl; simp at hi
          rcases key a word (c :: rest) hw ha (by intro x hx; simp at hx; subst hx; exact hc') a' w' b' e hle hw' ha' hb' hne with
            ⟨rfl, rfl⟩ | hlt
          · exact .inl ⟨i, rfl, hi, hp⟩
          · exact .inr ⟨a', w', b', by rw [← e]; simp, by simp at hlt ⊢; omega, hw', ha', hb', i, rfl, hi, hp⟩
        · rintro (⟨i, rfl, hi, hp⟩ | ⟨a', w', b', e, hle, hw', ha', hb', i, rfl, hi, hp⟩)
          · exact ⟨a, word, c :: rest, rfl, Nat.le_refl _, hw, ha, by intro x hx; simp at hx; subst hx; exact hc', i, rfl, hi, hp⟩
          · exact ⟨a', w', b', by rw [← e]; simp, by simp at hle; omega, hw', ha', hb', i, rfl, hi, hp⟩
      by_cases he : word = []
      · subst he
        rw [if_pos rfl]
        refine ⟨qs, by simpa using f1, ?_⟩
        intro p
        rw [hrest p]
        simp
      · rw [if_neg he]
        obtain ⟨ps, e1, e2⟩ := wordBreaks_spec wf a.length word
        rw [show a.length + word.length - word.length = a.length by omega, e1]
        simp only [f1]
        refine ⟨_, rfl, ?_⟩
        intro p
        rw [List.mem_append, e2, hrest p]

/-- **C24**, in a text: the hyphenation constrainer answers for every text and marks exactly the characters after which some
word of the text (a maximal run of letters) has a hyphenation point. -/
theorem C24_text_breaks (h : Hyphenation) (wf : h.Wf) (letters : List Char) (input : Text) :
    ∃ flags, hyphenCompute h letters input = .ok flags ∧ flags.length = input.length ∧
      ∀ p, flagAt flags p = true ↔ BreakAfter h letters input p := by
  obtain ⟨ps, e1, e2⟩ := hyphenLoop_spec wf letters input [] [] (by simp) (by simp)
  have e2' : ∀ p, p ∈ ps ↔ BreakAfter h letters input p := by
    intro p
    rw [e2]
    unfold BreakAfter
    simp
  obtain ⟨v, m1, m2, m3⟩ := markAll_spec (List.replicate input.length false) ps (by
    intro p hp
    obtain ⟨a, w, b, rfl, -, -, -, i, rfl, hi, -⟩ := (e2' p).1 hp
    simp; omega)
  refine ⟨v, ?_, by simpa using m2, ?_⟩
  · unfold hyphenCompute
    simp only [List.length_nil, Nat.add_zero] at e1
    rw [e1]; exact m1
  · intro p
    unfold flagAt
    rw [m3 p, flagAt_replicate, Bool.false_or, decide_eq_true_eq, e2']

end Louis
