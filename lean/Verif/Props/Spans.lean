import Verif.Model.Indicators

/-!
# C22, C26: user spans and maximal runs
-/

namespace Louis

open Regexp (Fault)

theorem markAll_spec (v : List Bool) (ps : List Nat) (h : ∀ p ∈ ps, p < v.length) :
    ∃ w, markAll v ps = .ok w ∧ w.length = v.length ∧
      ∀ i, (w[i]?).getD false = ((v[i]?).getD false || decide (i ∈ ps)) := by
  induction ps generalizing v with
  | nil => exact ⟨v, rfl, rfl, by simp⟩
  | cons p ps ih =>
    have hp := h p (List.mem_cons_self ..)
    obtain ⟨w, h1, h2, h3⟩ := ih (v.set p true) (by
      intro q hq; rw [List.length_set]; exact h q (List.mem_cons_of_mem _ hq))
    refine ⟨w, ?_, by rw [h2, List.length_set], ?_⟩
    · unfold markAll; rw [if_pos hp, h1]
    · intro i
      rw [h3 i]
      by_cases hi : i = p
      · subst hi; simp [hp]
      · simp [List.getElem?_set_ne (Ne.symm hi), hi]

theorem flagAt_replicate (n i : Nat) : ((List.replicate n false)[i]?).getD false = false := by
  by_cases h : i < n
  · simp [h]
  · rw [List.getElem?_eq_none (by simp; omega)]; rfl

/-- The positions of the text that some span of the class covers. -/
def SpanCovers (cls : Text) (spans : List Span) (n : Nat) (pos : Nat) : Prop :=
  pos < n ∧ ∃ s ∈ spans, s.cls = cls ∧ s.start ≤ pos ∧ pos < s.stop

/-- **C22**, computer braille: for arbitrary spans (empty, reversed, overlapping, beyond the end of the text) nothing panics
and exactly the positions of the text covered by some computer-braille span are marked. -/
theorem C22_computer_braille_spans (input : Text) (spans : List Span) :
    ∃ flags, comp6Compute input spans = .ok flags ∧ flags.length = input.length ∧
      ∀ pos, flagAt flags pos = true ↔ SpanCovers computerBraille spans input.length pos := by
  obtain ⟨w, h1, h2, h3⟩ := markAll_spec (List.replicate input.length false)
    ((spans.filter (·.cls == computerBraille)).flatMap fun s => List.range' s.start (min s.stop input.length - s.start)) (by
      intro p hp
      simp only [List.mem_flatMap, List.mem_range'_1] at hp
      obtain ⟨s, _, hs⟩ := hp
      simp only [List.length_replicate]; omega)
  refine ⟨w, h1, by simpa using h2, ?_⟩
  intro pos
  unfold flagAt
  rw [h3 pos, flagAt_replicate]
  simp only [Bool.false_or, decide_eq_true_eq, List.mem_flatMap, List.mem_filter, List.mem_range'_1, beq_iff_eq]
  unfold SpanCovers
  constructor
  · rintro ⟨s, ⟨h4, h5⟩, h6⟩; exact ⟨by omega, s, h4, h5, by omega, by omega⟩
  · rintro ⟨h6, s, h4, h5, h7, h8⟩; exact ⟨s, ⟨h4, h5⟩, by omega⟩

/-- **C22**, emphasis: the same for every emphasis class; characters listed in `noemphchars` are never emphasised. -/
theorem C22_emphasis_spans (x : EmphClass) (input : Text) (spans : List Span) :
    ∃ flags, x.active input spans = .ok flags ∧ flags.length = input.length ∧
      ∀ pos, flagAt flags pos = true ↔
        SpanCovers x.name spans input.length pos ∧ ¬ ∃ c, input[pos]? = some c ∧ c ∈ x.noemph := by
  obtain ⟨w, h1, h2, h3⟩ := markAll_spec (List.replicate input.length false)
    ((spans.filter (·.cls == x.name)).flatMap fun s =>
      (List.range' s.start (min s.stop input.length - s.start)).filter fun i => !(input[i]?).any (x.noemph.contains ·)) (by
      intro p hp
      simp only [List.mem_flatMap, List.mem_filter, List.mem_range'_1] at hp
      obtain ⟨s, _, hs, _⟩ := hp
      simp only [List.length_replicate]; omega)
  refine ⟨w, h1, by simpa using h2, ?_⟩
  intro pos
  unfold flagAt
  rw [h3 pos, flagAt_replicate]
  simp only [Bool.false_or, decide_eq_true_eq, List.mem_flatMap, List.mem_filter, List.mem_range'_1, beq_iff_eq]
  have hn : (!(input[pos]?).any (x.noemph.contains ·)) = true ↔ ¬ ∃ c, input[pos]? = some c ∧ c ∈ x.noemph := by
    cases input[pos]? <;> simp
  unfold SpanCovers
  constructor
  · rintro ⟨s, ⟨h4, h5⟩, h6, h7⟩; exact ⟨⟨by omega, s, h4, h5, by omega, by omega⟩, hn.mp h7⟩
  · rintro ⟨⟨h6, s, h4, h5, h7, h8⟩, h9⟩; exact ⟨s, ⟨h4, h5⟩, by omega, hn.mpr h9⟩

/-- Overlapping, reversed, empty and too long spans at once. -/
example : (comp6Compute "abcde".toList
    [⟨computerBraille, 3, 1⟩, ⟨computerBraille, 1, 3⟩, ⟨computerBraille, 2, 99⟩, ⟨computerBraille, 7, 9⟩,
      ⟨"bold".toList, 0, 1⟩]).toOption = some [false, true, true, true, true] := by decide +kernel

/-! ## Maximal runs -/

/-- The runs of `l` (whose first element is at position `pos`) where `p` holds, in order. -/
def RunsOf {α : Type} (p : α → Bool) (l : List α) (pos : Nat) (runs : List (Nat × Nat)) : Prop :=
  -- every run lies in the list, is not empty and satisfies the predicate
  (∀ r ∈ runs, pos ≤ r.1 ∧ r.1 < r.2 ∧ r.2 ≤ pos + l.length ∧
    (∀ i, r.1 ≤ i → i < r.2 → ∃ c, l[i - pos]? = some c ∧ p c = true)) ∧
  -- it is maximal: the elements just before and just after it do not satisfy the predicate
  (∀ r ∈ runs, (∀ c, pos < r.1 → l[r.1 - 1 - pos]? = some c → p c = false) ∧
    (∀ c, l[r.2 - pos]? = some c → p c = false)) ∧
  -- runs are disjoint and in order
  runs.Pairwise (fun r s => r.2 < s.1) ∧
  -- every element that satisfies the predicate is in a run
  (∀ i c, l[i]? = some c → p c = true → ∃ r ∈ runs, r.1 ≤ pos + i ∧ pos + i < r.2)

/-- Auxiliary form: `open` is the start of a run that is being collected, whose elements have been read already. -/
theorem findSpans_spec {α : Type} (p : α → Bool) (l : List α) : ∀ (pos : Nat) (o : Option Nat),
    (∀ s, o = some s → s < pos) →
    (match o with
    | none => RunsOf p l pos (findSpans p pos none l)
    | some s => ∃ e rest, findSpans p pos (some s) l = (s, e) :: rest ∧ pos ≤ e ∧ e ≤ pos + l.length ∧
        (∀ i, pos ≤ i → i < e → ∃ c, l[i - pos]? = some c ∧ p c = true) ∧
        (∀ c, l[e - pos]? = some c → p c = false) ∧
        RunsOf p (l.drop (e - pos)) e rest ∧ (∀ r ∈ rest, e < r.1)) := by
  induction l with
  | nil =>
    intro pos o ho
    cases o with
    | none => simp [findSpans, RunsOf]
    | some s => exact ⟨pos, [], by simp [findSpans], by simp, by simp, by intro i h1 h2; omega, by simp,
        by simp [RunsOf], by simp⟩
  | cons c cs ih =>
    intro pos o ho
    cases o with
    | none =>
      by_cases hc : p c = true
      · have h1 := ih (pos + 1) (some pos) (by intro s hs; injection hs with hs; omega)
        obtain ⟨e, rest, h2, h3, h4, h5, h6, h7, h8⟩ := h1
        simp only [findSpans, hc, if_true, h2]
        obtain ⟨r1, r2, r3, r4⟩ := h7
        have hin : ∀ i, pos ≤ i → i < e → ∃ d, (c :: cs)[i - pos]? = some d ∧ p d = true := by
          intro i hi1 hi2
          by_cases hi : i = pos
          · subst hi; exact ⟨c, by simp, hc⟩
          · obtain ⟨d, hd1, hd2⟩ := h5 i (by omega) hi2
            refine ⟨d, ?_, hd2⟩
            rw [show i - pos = (i - (pos + 1)) + 1 by omega, List.getElem?_cons_succ]; exact hd1
        have hget : ∀ j, e ≤ j → (cs.drop (e - (pos + 1)))[j - e]? = (c :: cs)[j - pos]? := by
          intro j hj
          rw [List.getElem?_drop, show j - pos = (j - (pos + 1)) + 1 by omega, List.getElem?_cons_succ]
          congr 1; omega
        have hend : ∀ d, (c :: cs)[e - pos]? = some d → p d = false := by
          intro d hd
          rw [show e - pos = (e - (pos + 1)) + 1 by omega, List.getElem?_cons_succ] at hd
          exact h6 d hd
        refine ⟨?_, ?_, ?_, ?_⟩
        · intro r hr
          rcases List.mem_cons.mp hr with rfl | hr
          · exact ⟨by simp, by simp; omega, by simp [List.length_cons]; omega, fun i hi1 hi2 => hin i hi1 hi2⟩
          · obtain ⟨a1, a2, a3, a4⟩ := r1 r hr
            refine ⟨by omega, a2, ?_, ?_⟩
            · rw [List.length_drop] at a3; simp only [List.length_cons]; omega
            · intro i hi1 hi2
              obtain ⟨d, hd1, hd2⟩ := a4 i hi1 hi2
              exact ⟨d, by rw [← hget i (by omega)]; exact hd1, hd2⟩
        · intro r hr
          rcases List.mem_cons.mp hr with rfl | hr
          · exact ⟨by intro d hd; simp at hd, hend⟩
          · obtain ⟨a1, a2, a3, a4⟩ := r1 r hr
            obtain ⟨b1, b2⟩ := r2 r hr
            have he := h8 r hr
            refine ⟨?_, ?_⟩
            · intro d hd1 hd2
              exact b1 d (by omega) (by rw [hget (r.1 - 1) (by omega)]; exact hd2)
            · intro d hd
              exact b2 d (by rw [hget r.2 (by omega)]; exact hd)
        · exact List.pairwise_cons.mpr ⟨fun r hr => h8 r hr, r3⟩
        · intro i d hd hp
          by_cases hi : pos + i < e
          · exact ⟨(pos, e), List.mem_cons_self .., by simp, hi⟩
          · obtain ⟨r, hr1, hr2, hr3⟩ := r4 (pos + i - e) d (by
              have := hget (pos + i) (by omega)
              rw [this]; rw [show pos + i - pos = i by omega]; exact hd) hp
            exact ⟨r, List.mem_cons_of_mem _ hr1, by omega, by omega⟩
      · have hc' : p c = false := by simpa using hc
        have h1 := ih (pos + 1) none (by intro s hs; cases hs)
        simp only [findSpans, hc', Bool.false_eq_true, if_false]
        simp only at h1
        obtain ⟨r1, r2, r3, r4⟩ := h1
        have hget : ∀ j, pos + 1 ≤ j → cs[j - (pos + 1)]? = (c :: cs)[j - pos]? := by
          intro j hj
          rw [show j - pos = (j - (pos + 1)) + 1 by omega, List.getElem?_cons_succ]
        refine ⟨?_, ?_, r3, ?_⟩
        · intro r hr
          obtain ⟨a1, a2, a3, a4⟩ := r1 r hr
          refine ⟨by omega, a2, by simp only [List.length_cons]; omega, ?_⟩
          intro i hi1 hi2
          obtain ⟨d, hd1, hd2⟩ := a4 i hi1 hi2
          exact ⟨d, by rw [← hget i (by omega)]; exact hd1, hd2⟩
        · intro r hr
          obtain ⟨a1, a2, a3, a4⟩ := r1 r hr
          obtain ⟨b1, b2⟩ := r2 r hr
          refine ⟨?_, ?_⟩
          · intro d hd1 hd2
            by_cases hx : pos + 1 < r.1
            · exact b1 d hx (by rw [hget (r.1 - 1) (by omega)]; exact hd2)
            · have : r.1 - 1 - pos = 0 := by omega
              rw [this] at hd2
              simp at hd2; subst hd2; exact hc'
          · intro d hd
            exact b2 d (by rw [hget r.2 (by omega)]; exact hd)
        · intro i d hd hp
          cases i with
          | zero => simp at hd; subst hd; rw [hp] at hc'; cases hc'
          | succ i =>
            obtain ⟨r, hr1, hr2, hr3⟩ := r4 i d (by simpa using hd) hp
            exact ⟨r, hr1, by omega, by omega⟩
    | some s =>
      have hs := ho s rfl
      by_cases hc : p c = true
      · obtain ⟨e, rest, h2, h3, h4, h5, h6, h7, h8⟩ := ih (pos + 1) (some s) (by intro s' hs'; injection hs' with hs'; omega)
        refine ⟨e, rest, by simp only [findSpans, hc, if_true, h2], by omega, by simp only [List.length_cons]; omega,
          ?_, ?_, ?_, h8⟩
        · intro i hi1 hi2
          by_cases hi : i = pos
          · subst hi; exact ⟨c, by simp, hc⟩
          · obtain ⟨d, hd1, hd2⟩ := h5 i (by omega) hi2
            refine ⟨d, ?_, hd2⟩
            rw [show i - pos = (i - (pos + 1)) + 1 by omega, List.getElem?_cons_succ]; exact hd1
        · intro d hd
          rw [show e - pos = (e - (pos + 1)) + 1 by omega, List.getElem?_cons_succ] at hd
          exact h6 d hd
        · rw [show e - pos = (e - (pos + 1)) + 1 by omega, List.drop_succ_cons]; exact h7
      · have hc' : p c = false := by simpa using hc
        have h1 := ih (pos + 1) none (by intro s hs; cases hs)
        simp only at h1
        obtain ⟨r1, r2, r3, r4⟩ := h1
        have hget : ∀ j, pos + 1 ≤ j → cs[j - (pos + 1)]? = (c :: cs)[j - pos]? := by
          intro j hj
          rw [show j - pos = (j - (pos + 1)) + 1 by omega, List.getElem?_cons_succ]
        refine ⟨pos, findSpans p (pos + 1) none cs, by simp only [findSpans, hc', Bool.false_eq_true, if_false],
          by omega, by omega, by intro i h1 h2; omega, by intro d hd; simp at hd; subst hd; exact hc', ?_, ?_⟩
        · simp only [Nat.sub_self, List.drop_zero]
          refine ⟨?_, ?_, r3, ?_⟩
          · intro r hr
            obtain ⟨a1, a2, a3, a4⟩ := r1 r hr
            refine ⟨by omega, a2, by simp only [List.length_cons]; omega, ?_⟩
            intro i hi1 hi2
            obtain ⟨d, hd1, hd2⟩ := a4 i hi1 hi2
            exact ⟨d, by rw [← hget i (by omega)]; exact hd1, hd2⟩
          · intro r hr
            obtain ⟨a1, a2, a3, a4⟩ := r1 r hr
            obtain ⟨b1, b2⟩ := r2 r hr
            refine ⟨?_, ?_⟩
            · intro d hd1 hd2
              by_cases hx : pos + 1 < r.1
              · exact b1 d hx (by rw [hget (r.1 - 1) (by omega)]; exact hd2)
              · have : r.1 - 1 - pos = 0 := by omega
                rw [this] at hd2
                simp at hd2; subst hd2; exact hc'
            · intro d hd
              exact b2 d (by rw [hget r.2 (by omega)]; exact hd)
          · intro i d hd hp
            cases i with
            | zero => simp at hd; subst hd; rw [hp] at hc'; cases hc'
            | succ i =>
              obtain ⟨r, hr1, hr2, hr3⟩ := r4 i d (by simpa using hd) hp
              exact ⟨r, hr1, by omega, by omega⟩
        · intro r hr
          have := (r1 r hr).1
          omega

/-- **C26**: the spans found in `chars[start..stop)` are exactly its maximal runs of matching characters: non-empty,
disjoint, in order, maximal, only matching characters, and every matching character is in one. -/
theorem C26_maximal_runs {α : Type} (p : α → Bool) (chars : List α) (start stop : Nat) :
    RunsOf p ((chars.take stop).drop start) start (spansIn p chars start stop) := by
  have := findSpans_spec p ((chars.take stop).drop start) start none (by intro s hs; cases hs)
  exact this

/-- The runs of a list are unique: two lists of runs that satisfy the specification are equal. -/
theorem RunsOf.unique {α : Type} (p : α → Bool) (l : List α) (pos : Nat) (a b : List (Nat × Nat))
    (ha : RunsOf p l pos a) (hb : RunsOf p l pos b) : ∀ r, r ∈ a → r ∈ b := by
  intro r hr
  obtain ⟨a1, a2, a3, a4⟩ := ha
  obtain ⟨b1, b2, b3, b4⟩ := hb
  obtain ⟨h1, h2, h3, h4⟩ := a1 r hr
  obtain ⟨c, hc1, hc2⟩ := h4 r.1 (Nat.le_refl _) h2
  obtain ⟨s, hs, hs1, hs2⟩ := b4 (r.1 - pos) c hc1 hc2
  obtain ⟨k1, k2, k3, k4⟩ := b1 s hs
  have e1 : s.1 = r.1 := by
    by_cases hx : s.1 = r.1
    · exact hx
    · exfalso
      obtain ⟨d, hd1, hd2⟩ := k4 (r.1 - 1) (by omega) (by omega)
      have := (a2 r hr).1 d (by omega) hd1
      rw [hd2] at this; cases this
  have e2 : s.2 = r.2 := by
    rcases Nat.lt_trichotomy s.2 r.2 with hx | hx | hx
    · exfalso
      obtain ⟨d, hd1, hd2⟩ := h4 s.2 (by omega) hx
      have := (b2 s hs).2 d hd1
      rw [hd2] at this; cases this
    · exact hx
    · exfalso
      obtain ⟨d, hd1, hd2⟩ := k4 r.2 (by omega) hx
      have := (a2 r hr).2 d hd1
      rw [hd2] at this; cases this
  have : s = r := Prod.ext e1 e2
  rw [← this]; exact hs

/-- A concrete case: the words of a text. -/
example : spansIn (fun c : Char => c != ' ') "  ab cd  e".toList 0 10 = [(2, 4), (5, 7), (9, 10)] := by decide

end Louis
