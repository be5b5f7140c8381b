import Verif.Props.Emphasis
import Verif.Props.Capitals
import Verif.Props.LetterSigns
import Verif.Props.Numbers
import Verif.Props.Backward
import Verif.Props.Hyphenation

/-!
# C22: indicators and constraints of a text are computed without panicking
-/

namespace Louis

open Regexp (Fault)

/-- Computer-braille signs: for each computer-braille span that covers at least one character, the opening sign at its start
and the closing sign (if defined) at its end, at most the end of the text. -/
theorem C22_computer_braille_signs (i : CompIndicator) (input : Text) (spans : List Span) :
    (∀ q, q ∈ i.precompute input spans ↔ ∃ s ∈ spans, s.cls = computerBraille ∧ s.start < s.stop ∧ s.start < input.length ∧
      (q = (s.start, i.begcomp) ∨ ∃ t, i.endcomp = some t ∧ q = (min s.stop input.length, t))) ∧
    (i.precompute input spans).Pairwise (fun a b => a.1 ≤ b.1) := by
  refine ⟨?_, stableSort_sorted respects_pos _⟩
  intro q
  unfold CompIndicator.precompute sortByPos
  rw [mem_stableSort, List.mem_flatMap]
  constructor
  · rintro ⟨s, hs, hq⟩
    split at hq
    · cases hq
    · next hc =>
      simp only at hq
      split at hq
      · cases hq
      · next hlt =>
        refine ⟨s, hs, by simpa using hc, by omega, by omega, ?_⟩
        rcases List.mem_cons.1 hq with rfl | hq
        · exact .inl rfl
        · obtain ⟨t, ht, rfl⟩ := toList_map_mem hq
          exact .inr ⟨t, ht, rfl⟩
  · rintro ⟨s, hs, hc, h1, h2, hq⟩
    refine ⟨s, hs, ?_⟩
    rw [if_neg (by simpa using hc)]
    simp only
    rw [if_neg (by omega)]
    rcases hq with rfl | ⟨t, ht, rfl⟩
    · simp
    · simp [ht]

theorem numLoop_lt (x : NumIndicator) : ∀ (cs : Text) (pos : Nat) (b : Bool), ∀ q ∈ x.loop pos b cs, q.1 < pos + cs.length := by
  intro cs
  induction cs with
  | nil => intro pos b q hq; simp [NumIndicator.loop] at hq
  | cons c cs ih =>
    intro pos b q hq
    have hrec : ∀ b', q ∈ x.loop (pos + 1) b' cs → q.1 < pos + (c :: cs).length := by
      intro b' h
      have := ih (pos + 1) b' q h
      simp only [List.length_cons]; omega
    have hhere : ∀ o : Option Resolved, q ∈ (o.map fun t => (pos, t)).toList → q.1 < pos + (c :: cs).length := by
      intro o h
      obtain ⟨t, -, rfl⟩ := toList_map_mem h
      simp only [List.length_cons]; omega
    rw [NumIndicator.loop.eq_def] at hq
    simp only at hq
    split at hq
    · exact hrec _ hq
    · rcases List.mem_append.1 hq with h | h
      · exact hhere _ h
      · exact hrec _ h
    · exact hrec _ hq
    · split at hq
      · exact hrec _ hq
      · split at hq
        · exact hrec _ hq
        · rcases List.mem_append.1 hq with h | h
          · split at h
            · exact hhere _ h
            · cases h
          · exact hrec _ h

theorem num_positions (x : NumIndicator) (input : Text) : ∀ q ∈ x.precompute input, q.1 < input.length := by
  intro q hq
  unfold NumIndicator.precompute at hq
  split at hq
  · cases hq
  · have := numLoop_lt x input 0 false q hq
    omega

theorem pushAll_spec : ∀ (ps : List (Nat × Resolved)) (v : List (List Resolved)), (∀ q ∈ ps, q.1 < v.length) →
    ∃ w, pushAll v ps = .ok w ∧ w.length = v.length ∧
      ∀ i, (w[i]?).getD [] = (v[i]?).getD [] ++ (ps.filter fun q => q.1 == i && decide (i < v.length)).map (·.2) := by
  intro ps
  induction ps with
  | nil => intro v _; exact ⟨v, rfl, rfl, by simp⟩
  | cons q ps ih =>
    intro v h
    obtain ⟨p, t⟩ := q
    have hp : p < v.length := h (p, t) (by simp)
    obtain ⟨w, w1, w2, w3⟩ := ih (v.set p (v[p] ++ [t])) (by
      intro q hq; rw [List.length_set]; exact h q (by simp [hq]))
    refine ⟨w, ?_, by rw [w2, List.length_set], ?_⟩
    · unfold pushAll
      simp only [List.getElem?_eq_getElem hp]
      exact w1
    · intro i
      rw [w3 i, List.length_set]
      by_cases hi : i = p
      · subst hi
        simp [hp]
      · rw [List.getElem?_set_ne (Ne.symm hi)]
        have : (p == i) = false := by simpa using Ne.symm hi
        simp [this]

/-- **C22**, indicators: for every text, every set of indicators and arbitrary spans the indicators are computed without
panicking; at each position they are those of the computer-braille, emphasis, number, letter-sign, capital and no-contraction
indicators, in this order, whose position it is; and none of them is lost. -/
theorem C22_indicators_total (i : Indicators) (lower : Char → List Char) (input : Text) (spans : List Span) :
    ∃ ps ind, i.pairs lower input spans = .ok ps ∧ i.precompute lower input spans = .ok ind ∧
      ind.length = input.length + 1 ∧ (∀ q ∈ ps, q.1 ≤ input.length) ∧
      ∀ pos, (ind[pos]?).getD [] = (ps.filter fun q => q.1 == pos).map (·.2) := by
  obtain ⟨emph, e1, e2, -⟩ := C29_positions i.emph input spans
  have hpos : ∀ q ∈ (match i.comp with | some c => c.precompute input spans | none => []) ++ emph ++
      (match i.num with | some c => c.precompute input | none => []) ++
      (match i.letsign with | some c => c.precompute lower input | none => []) ++
      (match i.caps with | some c => c.precompute input | none => []) ++
      (match i.nocontract with | some c => c.precompute lower input | none => []), q.1 ≤ input.length := by
    intro q hq
    simp only [List.mem_append] at hq
    rcases hq with ((((hq | hq) | hq) | hq) | hq) | hq
    · split at hq
      · next c _ =>
        obtain ⟨s, -, -, -, h, h'⟩ := ((C22_computer_braille_signs c input spans).1 q).1 hq
        rcases h' with rfl | ⟨t, -, rfl⟩
        · simp only; omega
        · simp only; omega
      · cases hq
    · exact e2 q hq
    · split at hq
      · exact Nat.le_of_lt (num_positions _ input q hq)
      · cases hq
    · split at hq
      · exact Nat.le_of_lt ((C28_positions lower _ input).2 q hq)
      · cases hq
    · split at hq
      · exact (C27_positions _ input).1 q hq
      · cases hq
    · split at hq
      · next c _ =>
        unfold NocIndicator.precompute at hq
        simp only [List.mem_map, List.mem_filter, List.mem_range] at hq
        obtain ⟨j, ⟨hj, -⟩, rfl⟩ := hq
        exact Nat.le_of_lt hj
      · cases hq
  have hex : ∃ ps, i.pairs lower input spans = .ok ps ∧ ∀ q ∈ ps, q.1 ≤ input.length := by
    unfold Indicators.pairs
    rw [e1]
    exact ⟨_, rfl, hpos⟩
  obtain ⟨ps, hpairs, hpos⟩ := hex
  obtain ⟨w, w1, w2, w3⟩ := pushAll_spec ps (List.replicate (input.length + 1) []) (by
    intro q hq
    have := hpos q hq
    rw [List.length_replicate]; omega)
  refine ⟨ps, w, hpairs, ?_, by simpa using w2, hpos, ?_⟩
  · rw [Indicators.precompute, hpairs]
    exact w1
  · intro pos
    rw [w3 pos, List.length_replicate]
    have hnil : ((List.replicate (input.length + 1) ([] : List Resolved))[pos]?).getD [] = [] := by
      by_cases h : pos < input.length + 1
      · simp [h]
      · rw [List.getElem?_eq_none (by simp; omega)]; rfl
    rw [hnil, List.nil_append]
    congr 1
    apply List.filter_congr
    intro q hq
    have := hpos q hq
    by_cases h : q.1 = pos
    · simp [h]; omega
    · simp [h]

/-- **C22**, constraints: with well-formed dots and hyphenation patterns, the position constraints of every text and arbitrary
spans are computed without panicking. -/
theorem C22_constraints_total (c : Constrainers) (hcaps : ∀ d, c.caps = some d → d.Wf) (hnum : ∀ d, c.backNumeric = some d → d.Wf)
    (hhyph : ∀ h, c.hyphenation = some h → h.1.Wf) (input : Text) (spans : List Span) :
    ∃ cons, c.precompute input spans = .ok cons := by
  obtain ⟨comp6, h1, -⟩ := C22_computer_braille_spans input spans
  unfold Constrainers.precompute
  simp only [h1]
  have A : ∀ d, c.caps = some d → ∃ u t, d.compute input = .ok (u, t) := by
    intro d hd
    obtain ⟨u, t, -, h, -⟩ := C40_capital_words d (hcaps d hd) input
    exact ⟨u, t, h⟩
  have B : ∀ d, c.backNumeric = some d → ∃ r, d.compute input = .ok r := by
    intro d hd
    obtain ⟨r, -, h, -⟩ := C40_digits_after_sign d (hnum d hd) input
    exact ⟨r, h⟩
  have C : ∀ h l, c.hyphenation = some (h, l) → ∃ r, hyphenCompute h l input = .ok r := by
    intro h l hd
    obtain ⟨r, h, -⟩ := C24_text_breaks h (hhyph _ hd) l input
    exact ⟨r, h⟩
  split
  · next heq =>
    exfalso
    split at heq
    · next d hd => obtain ⟨u, t, h⟩ := A d hd; rw [h] at heq; cases heq
    · cases heq
  · split
    · next heq =>
      exfalso
      split at heq
      · next d hd => obtain ⟨r, h⟩ := B d hd; rw [h] at heq; cases heq
      · cases heq
    · split
      · next heq =>
        exfalso
        split at heq
        · next d l hd => obtain ⟨r, h⟩ := C d l hd; rw [h] at heq; cases heq
        · cases heq
      · exact ⟨_, rfl⟩

/-- Non-vacuity: all indicators at once, with spans that reach beyond the text. -/
example : (Indicators.precompute
      { comp := some ⟨indication ['c'] ⟨.other, 0⟩, some (indication ['d'] ⟨.other, 0⟩)⟩, emph := [modeClass "italic" "i" "I"],
        num := some ⟨⟨['1', '2'], [], []⟩, some (indication ['#'] ⟨.other, 0⟩), none, []⟩, letsign := some signIndicator,
        caps := some demoCap, nocontract := none }
      (fun c => [c]) "A 12 b".toList
      [⟨computerBraille, 2, 99⟩, ⟨"italic".toList, 5, 4⟩, ⟨"italic".toList, 0, 1⟩]).toOption.map
      (·.map fun l => l.map (·.output)) =
    some [[['i'], ['l']], [['I']], [['c'], ['#']], [], [], [['l']], [['d']]] := by
  decide +kernel

end Louis
