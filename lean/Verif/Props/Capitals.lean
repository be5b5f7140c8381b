import Verif.Lemmas.Sort
import Verif.Props.Spans
import Verif.Spec.Capitals
import Verif.Spec.CapitalSigns

/-!
# C27: capital indicators
-/

namespace Louis

/-! ## Sorting a sorted list -/

theorem insertBack_self {α : Type} {less : α → α → Bool} (x : α) (l : List α) (h : ∀ y ∈ l, less x y = false) :
    insertBack less x l = x :: l := by
  cases l with
  | nil => rfl
  | cons y ys => rw [insertBack, h y (by simp)]; rfl

theorem stableSort_self {α : Type} {less : α → α → Bool} (l : List α) (h : l.Pairwise (fun a b => less b a = false)) :
    stableSort less l = l := by
  have key : ∀ (l acc : List α), l.Pairwise (fun a b => less b a = false) → (∀ a ∈ acc, ∀ b ∈ l, less b a = false) →
      l.foldl (fun acc x => insertBack less x acc) acc = l.reverse ++ acc := by
    intro l
    induction l with
    | nil => intro acc _ _; rfl
    | cons x l ih =>
      intro acc hl hacc
      rw [List.pairwise_cons] at hl
      rw [List.foldl_cons, insertBack_self x acc (fun y hy => hacc y hy x (by simp)), ih _ hl.2]
      · simp
      · intro a ha b hb
        rcases List.mem_cons.1 ha with rfl | ha
        · exact hl.1 b hb
        · exact hacc a ha b (by simp [hb])
  unfold stableSort
  rw [key l [] h (by simp)]
  simp

theorem sortByPos_self (l : List (Nat × Resolved)) (h : l.Pairwise (fun a b => a.1 ≤ b.1)) : sortByPos l = l := by
  refine stableSort_self l (h.imp ?_)
  intro a b hab
  simpa using hab

/-! ## Letters and words -/

variable {x : CapIndicator} {chars : Text}

theorem upperAt_letterAt {i : Nat} (h : x.upperAt chars i = true) : x.letterAt chars i = true := by
  unfold CapIndicator.upperAt at h
  unfold CapIndicator.letterAt
  cases hc : chars[i]? with
  | none => rw [hc] at h; simp at h
  | some c => rw [hc] at h; simp at h ⊢; exact h.1

/-- A position holds a letter if its character is one of the table's letters. -/
theorem letterAt_iff {i : Nat} : x.letterAt chars i = true ↔ ∃ c, chars[i]? = some c ∧ c ∈ x.letters := by
  unfold CapIndicator.letterAt
  cases chars[i]? <;> simp

/-- A position holds an upper-case letter if its character is a letter and belongs to the table's upper-case characters. -/
theorem upperAt_iff {i : Nat} :
    x.upperAt chars i = true ↔ ∃ c, chars[i]? = some c ∧ c ∈ x.letters ∧ c ∈ x.upper := by
  unfold CapIndicator.upperAt
  cases chars[i]? <;> simp

/-- The word characters are the letters and the `capsmodechars`. -/
theorem isWordChar_iff {c : Char} : x.isWordChar c = true ↔ c ∈ x.letters ∨ c ∈ x.modeChars := by
  simp [CapIndicator.isWordChar]

theorem letterAt_word {i : Nat} (h : x.letterAt chars i = true) : x.WordAt chars i := by
  unfold CapIndicator.letterAt at h
  cases hc : chars[i]? with
  | none => rw [hc] at h; simp at h
  | some c =>
    rw [hc] at h
    refine ⟨c, hc, ?_⟩
    simp at h
    simp [h]

theorem letterAt_lt {i : Nat} (h : x.letterAt chars i = true) : i < chars.length := by
  obtain ⟨c, hc, -⟩ := letterAt_word h
  exact (List.getElem?_eq_some_iff.1 hc).1

theorem letterAt_cases {i : Nat} (h : x.letterAt chars i = true) : x.upperAt chars i = true ∨ x.LowAt chars i := by
  cases hu : x.upperAt chars i with
  | true => exact .inl rfl
  | false => exact .inr ⟨h, hu⟩

theorem words_spec : (∀ w ∈ x.words chars, IsWord x chars w.1 w.2) ∧ (x.words chars).Pairwise (fun a b => a.2 < b.1) ∧
    ∀ i, x.WordAt chars i → ∃ w ∈ x.words chars, w.1 ≤ i ∧ i < w.2 := by
  have h := C26_maximal_runs x.isWordChar chars 0 chars.length
  have he : (chars.take chars.length).drop 0 = chars := by simp
  rw [he] at h
  obtain ⟨h1, h2, h3, h4⟩ := h
  refine ⟨?_, h3, ?_⟩
  · intro w hw
    obtain ⟨a, b, c, d⟩ := h1 w hw
    obtain ⟨e, f⟩ := h2 w hw
    refine ⟨b, by omega, ?_, ?_, ?_⟩
    · intro k hk1 hk2
      obtain ⟨ch, hc1, hc2⟩ := d k hk1 hk2
      exact ⟨ch, by simpa using hc1, isWordChar_iff.1 hc2⟩
    · rintro hs ⟨ch, hc1, hc2⟩
      have := e ch hs (by simpa using hc1)
      rw [isWordChar_iff.2 hc2] at this; cases this
    · rintro ⟨ch, hc1, hc2⟩
      have := f ch (by simpa using hc1)
      rw [isWordChar_iff.2 hc2] at this; cases this
  · rintro i ⟨ch, hc1, hc2⟩
    obtain ⟨r, hr, a, b⟩ := h4 i ch hc1 (isWordChar_iff.2 hc2)
    exact ⟨r, hr, by omega, by omega⟩

/-! ## Runs -/

/-- The inner loop of `upper_runs`. -/
theorem extend_spec (stop : Nat) : ∀ (fuel j close count : Nat), stop - j ≤ fuel → close ≤ j →
    (∀ k, close ≤ k → k < j → x.letterAt chars k = false) →
    ∃ close' count' j', x.extend chars stop fuel j close count = (close', count', j') ∧ j ≤ j' ∧ (j' ≤ stop ∨ j' = j) ∧
      close ≤ close' ∧ close' ≤ j' ∧ (∀ k, j ≤ k → k < j' → ¬ x.LowAt chars k) ∧
      (∀ k, close' ≤ k → k < j' → x.letterAt chars k = false) ∧ (stop ≤ j' ∨ x.LowAt chars j') ∧
      ((close' = close ∧ count' = count) ∨ (close < close' ∧ count < count' ∧ x.upperAt chars (close' - 1) = true)) := by
  intro fuel
  induction fuel with
  | zero =>
    intro j close count hf hc hn
    exact ⟨close, count, j, rfl, Nat.le_refl _, .inr rfl, Nat.le_refl _, hc, by intro k h1 h2; omega, hn, .inl (by omega),
      .inl ⟨rfl, rfl⟩⟩
  | succ fuel ih =>
    intro j close count hf hc hn
    rw [CapIndicator.extend]
    split
    · next hj =>
      exact ⟨close, count, j, rfl, Nat.le_refl _, .inr rfl, Nat.le_refl _, hc, by intro k h1 h2; omega, hn, .inl hj,
        .inl ⟨rfl, rfl⟩⟩
    · next hj =>
      split
      · next hl =>
        split
        · next hu =>
          obtain ⟨c', n', j', h1, h2, h3, h4, h5, h6, h7, h8, h9⟩ := ih (j + 1) (j + 1) (count + 1) (by omega) (Nat.le_refl _)
            (by intro k h1 h2; omega)
          refine ⟨c', n', j', h1, by omega, .inl ?_, by omega, h5, ?_, h7, h8, .inr ?_⟩
          · rcases h3 with h | h <;> omega
          · intro k k1 k2
            by_cases hk : k = j
            · subst hk; intro hlow; rw [hlow.2] at hu; cases hu
            · exact h6 k (by omega) k2
          · rcases h9 with ⟨rfl, rfl⟩ | ⟨h10, h11, h12⟩
            · exact ⟨by omega, by omega, by simpa using hu⟩
            · exact ⟨by omega, by omega, h12⟩
        · next hu =>
          exact ⟨close, count, j, rfl, Nat.le_refl _, .inr rfl, Nat.le_refl _, hc, by intro k h1 h2; omega, hn,
            .inr ⟨hl, by simpa using hu⟩, .inl ⟨rfl, rfl⟩⟩
      · next hl =>
        obtain ⟨c', n', j', h1, h2, h3, h4, h5, h6, h7, h8, h9⟩ := ih (j + 1) close count (by omega) (by omega)
          (by
            intro k h1 h2
            by_cases hk : k = j
            · subst hk; simpa using hl
            · exact hn k h1 (by omega))
        refine ⟨c', n', j', h1, by omega, .inl ?_, h4, h5, ?_, h7, h8, h9⟩
        · rcases h3 with h | h <;> omega
        · intro k k1 k2
          by_cases hk : k = j
          · subst hk; intro hlow; exact hl hlow.1
          · exact h6 k (by omega) k2

/-! ## Lists of marks -/

/-- Some sign can announce every run. -/
def CapIndicator.complete (x : CapIndicator) : Prop := x.capsletter.isSome ∨ x.begcaps.isSome

/-- A list of marks that announces `[lo, hi)`. -/
structure MarksIn (x : CapIndicator) (chars : Text) (lo hi : Nat) (ms : List CapMark) : Prop where
  valid : ∀ m ∈ ms, lo ≤ m.start ∧ m.lastPos ≤ hi ∧ m.Valid x chars
  order : ms.Pairwise (fun a b => a.lastPos < b.start)
  cover : x.complete → ∀ i, lo ≤ i → i < hi → x.upperAt chars i = true → ∃ m ∈ ms, m.start ≤ i ∧ i < m.stop

theorem MarksIn.nil {lo hi : Nat} (h : ∀ i, lo ≤ i → i < hi → x.upperAt chars i = false) : MarksIn x chars lo hi [] where
  valid := by simp
  order := by simp
  cover := by intro _ i h1 h2 h3; rw [h i h1 h2] at h3; cases h3

theorem CapMark.Valid.upper {m : CapMark} (h : m.Valid x chars) : x.upperAt chars m.start = true := by
  cases m with
  | letter i => exact h.1
  | word p e stop => exact h.1.first
  | mode p e =>
    rcases h.2 with h | ⟨-, runs, h⟩
    · exact h.1.first
    · have h1 := h.first
      cases runs with
      | nil => simp at h1
      | cons r rs =>
        simp at h1
        have := (h.each r (by simp)).first
        rw [h1] at this
        exact this

theorem MarksIn.append {lo mid hi : Nat} {a b : List CapMark} (ha : MarksIn x chars lo mid a) (hb : MarksIn x chars mid hi b)
    (h1 : lo ≤ mid) (h2 : mid ≤ hi) (hm : x.upperAt chars mid = false ∨ ∀ m ∈ a, m.lastPos < mid) : MarksIn x chars lo hi (a ++ b) where
  valid := by
    intro m hm
    rcases List.mem_append.1 hm with hm | hm
    · obtain ⟨q1, q2, q3⟩ := ha.valid m hm
      exact ⟨q1, by omega, q3⟩
    · obtain ⟨q1, q2, q3⟩ := hb.valid m hm
      exact ⟨by omega, q2, q3⟩
  order := by
    rw [List.pairwise_append]
    refine ⟨ha.order, hb.order, ?_⟩
    intro m hm' m' hm''
    obtain ⟨q1, q2, q3⟩ := ha.valid m hm'
    obtain ⟨r1, r2, r3⟩ := hb.valid m' hm''
    rcases hm with hm | hm
    · have := r3.upper
      have : m'.start ≠ mid := by
        intro h; rw [h, hm] at this; cases this
      omega
    · have := hm m hm'
      omega
  cover := by
    intro hc i k1 k2 k3
    by_cases hi : i < mid
    · obtain ⟨m, hm, h⟩ := ha.cover hc i k1 hi k3
      exact ⟨m, by simp [hm], h⟩
    · obtain ⟨m, hm, h⟩ := hb.cover hc i (by omega) k2 k3
      exact ⟨m, by simp [hm], h⟩

/-- The marks of a run: the letter sign, the word sign (if `endOk` says how it ends), the mode signs, or letter by letter. -/
theorem letterwise_marks {p e : Nat} (hrun : UpperRun x chars p e) (h1 : x.begcaps = none)
    (h2 : x.begcapsword = none ∨ x.endcapsword = none) :
    ∃ ms, x.letterwise chars p e = ms.flatMap (·.emit x) ∧ MarksIn x chars p e ms ∧ ∀ m ∈ ms, m.lastPos < e := by
  unfold CapIndicator.letterwise
  cases hl : x.capsletter with
  | none =>
    refine ⟨[], rfl, ⟨by simp, by simp, ?_⟩, by simp⟩
    rintro (h | h)
    · simp [hl] at h
    · simp [h1] at h
  | some t =>
    have hmem : ∀ i, i ∈ (List.range' p (e - p)).filter (x.upperAt chars) ↔ p ≤ i ∧ i < e ∧ x.upperAt chars i = true := by
      intro i
      have := hrun.nonempty
      rw [List.mem_filter, List.mem_range'_1]
      constructor
      · rintro ⟨h, h'⟩; exact ⟨h.1, by omega, h'⟩
      · rintro ⟨a, b, c⟩; exact ⟨by omega, c⟩
    refine ⟨((List.range' p (e - p)).filter (x.upperAt chars)).map CapMark.letter, ?_, ⟨?_, ?_, ?_⟩, ?_⟩
    · dsimp only
      rw [List.flatMap_map, List.map_eq_flatMap]
      congr 1
      funext i
      simp [CapMark.emit, hl]
    · intro m hm
      obtain ⟨i, hi, rfl⟩ := List.mem_map.1 hm
      rw [hmem] at hi
      exact ⟨hi.1, by simp only [CapMark.lastPos]; omega, hi.2.2, by simp [hl], .inr ⟨h1, h2⟩⟩
    · rw [List.pairwise_map]
      exact List.Pairwise.filter _ List.pairwise_lt_range'
    · intro _ i a b c
      refine ⟨.letter i, List.mem_map_of_mem ((hmem i).2 ⟨a, b, c⟩), ?_⟩
      simp [CapMark.start, CapMark.stop]
    · intro m hm
      obtain ⟨i, hi, rfl⟩ := List.mem_map.1 hm
      rw [hmem] at hi
      exact hi.2.1

theorem single_mark {lo hi : Nat} {m : CapMark} (hv : m.Valid x chars) (h1 : lo ≤ m.start) (h2 : m.lastPos ≤ hi)
    (hc : ∀ i, lo ≤ i → i < hi → x.upperAt chars i = true → m.start ≤ i ∧ i < m.stop) : MarksIn x chars lo hi [m] where
  valid := by intro m' hm; simp at hm; subst hm; exact ⟨h1, h2, hv⟩
  order := by simp
  cover := by intro _ i a b c; exact ⟨m, by simp, hc i a b c⟩

theorem MarksIn.widen {lo lo' hi hi' : Nat} {ms : List CapMark} (h : MarksIn x chars lo hi ms) (h1 : lo' ≤ lo) (h2 : hi ≤ hi')
    (hl : ∀ i, lo' ≤ i → i < lo → x.upperAt chars i = false) (hr : ∀ i, hi ≤ i → i < hi' → x.upperAt chars i = false) :
    MarksIn x chars lo' hi' ms where
  valid := by
    intro m hm
    obtain ⟨a, b, c⟩ := h.valid m hm
    exact ⟨by omega, by omega, c⟩
  order := h.order
  cover := by
    intro hc i a b c
    refine h.cover hc i ?_ ?_ c
    · rcases Nat.lt_or_ge i lo with hlt | hge
      · rw [hl i a hlt] at c; cases c
      · exact hge
    · rcases Nat.lt_or_ge i hi with hlt | hge
      · exact hlt
      · rw [hr i hge b] at c; cases c

theorem UpperRun.cover {p e : Nat} (_ : UpperRun x chars p e) : ∀ i, p ≤ i → i < e → x.upperAt chars i = true → p ≤ i ∧ i < e :=
  fun _ a b _ => ⟨a, b⟩

/-- The mode signs around a run, or letter by letter. -/
theorem modeTier_marks {p e : Nat} (hrun : UpperRun x chars p e) (hcount : x.capsletter = none ∨ p + 1 < e)
    (h2 : x.begcapsword = none ∨ x.endcapsword = none) :
    ∃ ms, (match x.begcaps with
      | some b => (p, b) :: (x.endcaps.map fun t => (e, t)).toList
      | none => x.letterwise chars p e) = ms.flatMap (·.emit x) ∧ MarksIn x chars p e ms := by
  cases hb : x.begcaps with
  | none =>
    obtain ⟨ms, m1, m2, -⟩ := letterwise_marks hrun hb h2
    exact ⟨ms, m1, m2⟩
  | some b =>
    refine ⟨[.mode p e], ?_, single_mark ⟨by simp [hb], .inl ⟨hrun, hcount, h2⟩⟩ (Nat.le_refl _) (Nat.le_refl _) hrun.cover⟩
    simp only [List.flatMap_cons, List.flatMap_nil, CapMark.emit, hb]
    cases x.endcaps <;> simp

/-- The marks of a run inside a word that is not all in upper case. -/
theorem emitRun_marks {r : CapRun} {j : Nat} (hrun : UpperRun x chars r.opn r.close) (hc1 : r.count = 1 → r.close = r.opn + 1)
    (hc2 : r.count ≠ 1 → r.opn + 1 < r.close) (hj : r.close ≤ j)
    (hgap : ∀ k, r.close ≤ k → k < j → x.WordAt chars k ∧ x.letterAt chars k = false)
    (hend : (r.needsClose = true ∧ r.trigger = j ∧ x.LowAt chars j) ∨ (r.needsClose = false ∧ ¬ x.WordAt chars j)) :
    ∃ ms, x.emitRun chars r = ms.flatMap (·.emit x) ∧ MarksIn x chars r.opn j ms := by
  have hno : ∀ i, r.close ≤ i → i < j → x.upperAt chars i = false := by
    intro i a b
    cases hu : x.upperAt chars i with
    | false => rfl
    | true => have := (hgap i a b).2; rw [upperAt_letterAt hu] at this; cases this
  have hcover : ∀ i, r.opn ≤ i → i < j → x.upperAt chars i = true → r.opn ≤ i ∧ i < r.close := by
    intro i a b c
    refine ⟨a, ?_⟩
    rcases Nat.lt_or_ge i r.close with h | h
    · exact h
    · rw [hno i h b] at c; cases c
  have hne := hrun.nonempty
  unfold CapIndicator.emitRun
  simp only
  split
  · next t ht =>
    split at ht
    · next hcount =>
      have hcl := hc1 hcount
      rw [hcl] at hrun
      refine ⟨[.letter r.opn], by simp [CapMark.emit, ht], ?_⟩
      refine single_mark ⟨hrun.first, by simp [ht], .inl hrun⟩ (Nat.le_refl _) (by simp only [CapMark.lastPos]; omega) ?_
      intro i a b c
      have := hcover i a b c
      simp only [CapMark.start, CapMark.stop]
      omega
    · cases ht
  · next hcl =>
    have hcount : x.capsletter = none ∨ r.opn + 1 < r.close := by
      split at hcl
      · exact .inl hcl
      · next h => exact .inr (hc2 h)
    have hmode : (x.begcapsword = none ∨ x.endcapsword = none) → ∃ ms, (match x.begcaps with
        | some b => (r.opn, b) :: (x.endcaps.map fun t => (r.close, t)).toList
        | none => x.letterwise chars r.opn r.close) = ms.flatMap (·.emit x) ∧ MarksIn x chars r.opn j ms := by
      intro h
      obtain ⟨ms, m1, m2⟩ := modeTier_marks hrun hcount h
      exact ⟨ms, m1, m2.widen (Nat.le_refl _) hj (by intro i a b; omega) hno⟩
    split
    · next b hb =>
      split
      · next hn =>
        have hn : r.needsClose = false := by simpa using hn
        rcases hend with ⟨h, -⟩ | ⟨-, hw⟩
        · rw [hn] at h; cases h
        · refine ⟨[.word r.opn r.close none], by simp [CapMark.emit, hb], ?_⟩
          refine single_mark ⟨hrun, by simp [hb], hcount, ?_⟩ (Nat.le_refl _) (by simp only [CapMark.lastPos]; omega) hcover
          intro q hq hk
          rcases Nat.lt_or_ge q j with h | h
          · exact (hgap q hq h).2
          · exact absurd (hk j hj h) hw
      · next hn =>
        have hn : r.needsClose = true := by simpa using hn
        split
        · next e he =>
          rcases hend with ⟨-, ht, hlow⟩ | ⟨h, -⟩
          · rw [ht]
            refine ⟨[.word r.opn r.close (some j)], by simp [CapMark.emit, hb, he], ?_⟩
            exact single_mark ⟨hrun, by simp [hb], hcount, by simp [he], hj, hlow, hgap⟩ (Nat.le_refl _) (Nat.le_refl _) hcover
          · rw [hn] at h; cases h
        · next he => exact hmode (.inr he)
    · next hb => exact hmode (.inl hb)

/-- All runs of a word from position `i` on. -/
theorem upperRuns_marks {s stop : Nat} (hw : IsWord x chars s stop) : ∀ (fuel i : Nat), stop - i ≤ fuel → s ≤ i → i ≤ stop →
    (∀ j, j < i → x.upperAt chars j = true → ∃ k, j ≤ k ∧ k ≤ i ∧ (¬ x.WordAt chars k ∨ x.LowAt chars k)) →
    ∃ ms, (x.upperRuns chars stop fuel i).flatMap (x.emitRun chars) = ms.flatMap (·.emit x) ∧ MarksIn x chars i stop ms := by
  intro fuel
  induction fuel with
  | zero =>
    intro i hf hs hi _
    exact ⟨[], rfl, MarksIn.nil (by intro k a b; omega)⟩
  | succ fuel ih =>
    intro i hf hs hi hleft
    rw [CapIndicator.upperRuns]
    split
    · exact ⟨[], rfl, MarksIn.nil (by intro k a b; omega)⟩
    · next hlt =>
      split
      · next hu =>
        obtain ⟨c, n, j, h1, h2, h3, h4, h5, h6, h7, h8, h9⟩ := extend_spec (x := x) (chars := chars) stop (stop - i) (i + 1) (i + 1) 1 (by omega)
          (Nat.le_refl _) (by intro k a b; omega)
        rw [h1]
        simp only
        have hj : j ≤ stop := by rcases h3 with h | h <;> omega
        have hword : ∀ k, i ≤ k → k < j → x.WordAt chars k := fun k a b => hw.inside k (by omega) (by omega)
        have hrun : UpperRun x chars i c := by
          refine ⟨by omega, hu, ?_, ?_, ?_, ?_⟩
          rotate_right
          · intro q a b
            obtain ⟨k, k1, k2, k3⟩ := hleft q a b
            refine ⟨k, k1, ?_, k3⟩
            have : k ≠ i := by
              rintro rfl
              rcases k3 with k3 | k3
              · exact k3 (letterAt_word (upperAt_letterAt hu))
              · rw [k3.2] at hu; cases hu
            omega
          · rcases h9 with ⟨rfl, -⟩ | ⟨-, -, h⟩
            · simpa using hu
            · exact h
          · intro k a b
            refine ⟨hword k a (by omega), ?_⟩
            by_cases hk : k = i
            · subst hk; intro hl; rw [hl.2] at hu; cases hu
            · exact h6 k (by omega) (by omega)
          · intro q a b
            rcases Nat.lt_or_ge q j with h | h
            · have := h7 q a h
              rw [upperAt_letterAt b] at this; cases this
            · refine ⟨j, h5, h, ?_⟩
              rcases h8 with h8 | h8
              · have : j = stop := by omega
                subst this; exact .inl hw.after
              · exact .inr h8
        have hfollow : ((List.range' c (stop - c)).find? (x.letterAt chars) = some j ∧ x.LowAt chars j ∧ j < stop) ∨
            ((List.range' c (stop - c)).find? (x.letterAt chars) = none ∧ j = stop) := by
          rcases Nat.lt_or_ge j stop with hjs | hjs
          · rcases h8 with h8 | h8
            · omega
            · refine .inl ⟨?_, h8, hjs⟩
              rw [List.find?_range'_eq_some]
              refine ⟨h8.1, ?_, ?_⟩
              · rw [List.mem_range'_1]; omega
              · intro k a b; rw [h7 k a b]; rfl
          · refine .inr ⟨?_, by omega⟩
            rw [List.find?_eq_none]
            intro k hk
            rw [List.mem_range'_1] at hk
            rw [h7 k (by omega) (by omega)]; simp
        obtain ⟨ms, m1, m2⟩ := emitRun_marks (x := x) (chars := chars) (j := j)
          (r := ⟨i, c, n, ((List.range' c (stop - c)).find? (x.letterAt chars)).isSome,
            ((List.range' c (stop - c)).find? (x.letterAt chars)).getD c⟩) hrun
          (by
            intro hn
            rcases h9 with ⟨h, -⟩ | ⟨-, h, -⟩
            · exact h
            · simp only at hn; omega)
          (by
            intro hn
            rcases h9 with ⟨-, h⟩ | ⟨h, -, -⟩
            · exact absurd h hn
            · simp only; omega)
          h5 (fun k a b => ⟨hword k (by simp only at a; omega) b, h7 k a b⟩)
          (by
            rcases hfollow with ⟨a, b, -⟩ | ⟨a, b⟩
            · left; simp [a, b]
            · right; rw [a]; subst b; exact ⟨rfl, hw.after⟩)
        obtain ⟨ms', k1, k2⟩ := ih j (by omega) (by omega) hj (by
          intro q a b
          rcases Nat.lt_or_ge q i with h | h
          · obtain ⟨k, k1, k2, k3⟩ := hleft q h b
            exact ⟨k, k1, by omega, k3⟩
          · refine ⟨j, by omega, Nat.le_refl _, ?_⟩
            rcases h8 with h8 | h8
            · have : j = stop := by omega
              subst this; exact .inl hw.after
            · exact .inr h8)
        refine ⟨ms ++ ms', ?_, m2.append k2 (by simp only; omega) hj ?_⟩
        · rw [List.flatMap_cons, m1, k1, List.flatMap_append]
        · left
          rcases hfollow with ⟨-, b, -⟩ | ⟨-, rfl⟩
          · exact b.2
          · cases hu : x.upperAt chars j with
            | false => rfl
            | true => exact absurd (letterAt_word (upperAt_letterAt hu)) hw.after
      · next hu =>
        have hu : x.upperAt chars i = false := by simpa using hu
        obtain ⟨ms, m1, m2⟩ := ih (i + 1) (by omega) (by omega) (by omega) (by
          intro q a b
          rcases Nat.lt_or_ge q i with h | h
          · obtain ⟨k, k1, k2, k3⟩ := hleft q h b
            exact ⟨k, k1, by omega, k3⟩
          · have : q = i := by omega
            rw [this, hu] at b; cases b)
        refine ⟨ms, m1, m2.widen (by omega) (Nat.le_refl _) ?_ (by intro k a b; omega)⟩
        intro k a b
        have : k = i := by omega
        rw [this]; exact hu

theorem partialWord_marks {s e : Nat} (hw : IsWord x chars s e) :
    ∃ ms, x.partialWord chars s e = ms.flatMap (·.emit x) ∧ MarksIn x chars s e ms := by
  refine upperRuns_marks hw (e - s) s (Nat.le_refl _) (Nat.le_refl _) (Nat.le_of_lt hw.nonempty) ?_
  intro j hj _
  exact ⟨s - 1, by omega, by omega, .inl (hw.before (by omega))⟩

/-! ## Words in upper case -/

/-- `(p, e, n)` describes a word all of whose letters are upper-case letters: `[p, e)` are its letters. -/
structure Whole (x : CapIndicator) (chars : Text) (w : Nat × Nat × Nat) : Prop where
  run : UpperRun x chars w.1 w.2.1
  one : w.2.2 = 1 → w.2.1 = w.1 + 1
  many : w.2.2 ≠ 1 → w.1 + 1 < w.2.1
  after : ∀ q, w.2.1 ≤ q → (∀ k, w.2.1 ≤ k → k ≤ q → x.WordAt chars k) → x.letterAt chars q = false

theorem classify_spec {s e : Nat} (hw : IsWord x chars s e) {w : Nat × Nat × Nat} (h : x.classify chars s e = some w) :
    Whole x chars w ∧ s ≤ w.1 ∧ w.2.1 ≤ e ∧ ∀ i, s ≤ i → i < e → x.letterAt chars i = true →
      x.upperAt chars i = true ∧ w.1 ≤ i ∧ i < w.2.1 := by
  unfold CapIndicator.classify at h
  simp only at h
  generalize hls : x.letterPositions chars s e = ls at h
  have hmem : ∀ i, i ∈ ls ↔ s ≤ i ∧ i < e ∧ x.letterAt chars i = true := by
    intro i
    have := hw.nonempty
    rw [← hls, CapIndicator.letterPositions, List.mem_filter, List.mem_range'_1]
    constructor
    · rintro ⟨h, h'⟩; exact ⟨h.1, by omega, h'⟩
    · rintro ⟨a, b, c⟩; exact ⟨by omega, c⟩
  have hsorted : ls.Pairwise (· < ·) := by
    rw [← hls, CapIndicator.letterPositions]
    exact List.Pairwise.filter _ List.pairwise_lt_range'
  cases ls with
  | nil => simp at h
  | cons a rest =>
    rcases List.eq_nil_or_concat (a :: rest) with hnil | ⟨y, u, hu⟩
    · cases hnil
    have hlast : (a :: rest).getLast? = some u := by rw [hu, List.concat_eq_append]; simp
    rw [hlast] at h
    simp only [List.head?_cons] at h
    split at h
    · next hall =>
      have hall : ∀ i ∈ a :: rest, x.upperAt chars i = true := by simpa using hall
      injection h with h
      subst h
      have hmin : ∀ i ∈ a :: rest, a ≤ i := by
        rw [List.pairwise_cons] at hsorted
        intro i hi
        rcases List.mem_cons.1 hi with rfl | hi
        · exact Nat.le_refl _
        · exact Nat.le_of_lt (hsorted.1 i hi)
      have hmax : ∀ i ∈ a :: rest, i ≤ u := by
        rw [hu, List.concat_eq_append, List.pairwise_append] at hsorted
        intro i hi
        rw [hu, List.concat_eq_append] at hi
        rcases List.mem_append.1 hi with hi | hi
        · exact Nat.le_of_lt (hsorted.2.2 i hi u (by simp))
        · simp at hi; omega
      have hu' : u ∈ a :: rest := List.mem_of_getLast? hlast
      have ha' : a ∈ a :: rest := by simp
      have hau := hmin u hu'
      obtain ⟨a1, a2, a3⟩ := (hmem a).1 ha'
      obtain ⟨u1, u2, u3⟩ := (hmem u).1 hu'
      have hin : ∀ i, s ≤ i → i < e → x.letterAt chars i = true → x.upperAt chars i = true ∧ a ≤ i ∧ i < u + 1 := by
        intro i h1 h2 h3
        have hi := (hmem i).2 ⟨h1, h2, h3⟩
        exact ⟨hall i hi, hmin i hi, Nat.lt_succ_of_le (hmax i hi)⟩
      refine ⟨⟨⟨by simp only; omega, hall a ha', ?_, ?_, ?_, ?_⟩, ?_, ?_, ?_⟩, a1, u2, hin⟩
      · simpa using hall u hu'
      · intro k h1 h2
        simp only at h1 h2
        refine ⟨hw.inside k (by omega) (by omega), ?_⟩
        intro hl
        have := (hin k (by omega) (by omega) hl.1).1
        rw [hl.2] at this; cases this
      · intro j h1 h2
        simp only at h1
        rcases Nat.lt_or_ge j e with h | h
        · have := (hin j (by omega) h (upperAt_letterAt h2)).2.2
          omega
        · exact ⟨e, by simp only; omega, h, .inl hw.after⟩
      · intro j h1 h2
        simp only at h1
        rcases Nat.lt_or_ge j s with h | h
        · exact ⟨s - 1, by omega, by simp only; omega, .inl (hw.before (by omega))⟩
        · have := (hin j h (by omega) (upperAt_letterAt h2)).2.1
          omega
      · intro hn
        simp only at hn ⊢
        cases rest with
        | nil => simp at hlast; omega
        | cons b r => simp at hn
      · intro hn
        simp only at hn ⊢
        cases rest with
        | nil => simp at hn
        | cons b r =>
          rw [List.pairwise_cons] at hsorted
          have h1 := hsorted.1 b (by simp)
          have h2 := hmax b (by simp)
          omega
      · intro q h1 h2
        simp only at h1 h2
        cases hl : x.letterAt chars q with
        | false => rfl
        | true =>
          rcases Nat.lt_or_ge q e with h | h
          · have := (hin q (by omega) h hl).2.2
            omega
          · exact absurd (h2 e (by omega) h) hw.after
    · cases h

theorem wholeWord_marks {w : Nat × Nat × Nat} (hw : Whole x chars w) :
    ∃ ms, x.wholeWord chars w = ms.flatMap (·.emit x) ∧ MarksIn x chars w.1 w.2.1 ms := by
  have hne := hw.run.nonempty
  unfold CapIndicator.wholeWord
  split
  · next t ht =>
    split at ht
    · next hcount =>
      have hcl := hw.one hcount
      have hrun := hw.run
      rw [hcl] at hrun
      refine ⟨[.letter w.1], by simp [CapMark.emit, ht], ?_⟩
      refine single_mark ⟨hrun.first, by simp [ht], .inl hrun⟩ (Nat.le_refl _) (by simp only [CapMark.lastPos]; omega) ?_
      intro i a b c
      simp only [CapMark.start, CapMark.stop]
      omega
    · cases ht
  · next hcl =>
    have hcount : x.capsletter = none ∨ w.1 + 1 < w.2.1 := by
      split at hcl
      · exact .inl hcl
      · next h => exact .inr (hw.many h)
    split
    · next b hb =>
      refine ⟨[.word w.1 w.2.1 none], by simp [CapMark.emit, hb], ?_⟩
      exact single_mark ⟨hw.run, by simp [hb], hcount, hw.after⟩ (Nat.le_refl _) (by simp only [CapMark.lastPos]; omega)
        hw.run.cover
    · next hb => exact modeTier_marks hw.run hcount (.inl hb)

/-- The marks of the words of a group, one after the other. -/
theorem perWord_marks : ∀ (gs : List (Nat × Nat × Nat)), (∀ g ∈ gs, Whole x chars g) → gs.Pairwise (fun a b => a.2.1 < b.1) →
    ∃ ms : List CapMark, gs.flatMap (x.wholeWord chars) = ms.flatMap (·.emit x) ∧
      (∀ m ∈ ms, m.Valid x chars ∧ ∃ g ∈ gs, g.1 ≤ m.start ∧ m.lastPos ≤ g.2.1) ∧ ms.Pairwise (fun a b => a.lastPos < b.start) ∧
      (x.complete → ∀ g ∈ gs, ∀ i, g.1 ≤ i → i < g.2.1 → x.upperAt chars i = true → ∃ m ∈ ms, m.start ≤ i ∧ i < m.stop) := by
  intro gs
  induction gs with
  | nil => intro _ _; exact ⟨[], rfl, by simp, by simp, by simp⟩
  | cons g gs ih =>
    intro hg ho
    rw [List.pairwise_cons] at ho
    obtain ⟨ms, m1, m2, m3, m4⟩ := ih (fun g' h => hg g' (by simp [h])) ho.2
    obtain ⟨ns, n1, n2⟩ := wholeWord_marks (hg g (by simp))
    refine ⟨ns ++ ms, by rw [List.flatMap_cons, m1, n1, List.flatMap_append], ?_, ?_, ?_⟩
    · intro m hm
      rcases List.mem_append.1 hm with hm | hm
      · obtain ⟨a, b, c⟩ := n2.valid m hm
        exact ⟨c, g, by simp, a, b⟩
      · obtain ⟨a, g', b, c⟩ := m2 m hm
        exact ⟨a, g', by simp [b], c⟩
    · rw [List.pairwise_append]
      refine ⟨n2.order, m3, ?_⟩
      intro a ha b hb
      obtain ⟨-, a1, -⟩ := n2.valid a ha
      obtain ⟨-, g', b1, b2, -⟩ := m2 b hb
      have := ho.1 g' b1
      omega
    · intro hc g' hg' i a b c
      rcases List.mem_cons.1 hg' with rfl | hg'
      · obtain ⟨m, hm, h⟩ := n2.cover hc i a b c
        exact ⟨m, by simp [hm], h⟩
      · obtain ⟨m, hm, h⟩ := m4 hc g' hg' i a b c
        exact ⟨m, by simp [hm], h⟩

/-! ## Announcements -/

/-- A list of announcements for `[lo, hi)`. -/
structure PiecesIn (x : CapIndicator) (chars : Text) (lo hi : Nat) (ps : List CapPiece) : Prop where
  valid : ∀ m ∈ ps, lo ≤ m.start ∧ m.lastPos ≤ hi ∧ m.Valid x chars
  order : ps.Pairwise (fun a b => a.lastPos < b.start)
  cover : x.complete → ∀ i, lo ≤ i → i < hi → x.upperAt chars i = true → ∃ m ∈ ps, m.start ≤ i ∧ i < m.stop

theorem MarksIn.pieces {lo hi : Nat} {ms : List CapMark} (h : MarksIn x chars lo hi ms) :
    PiecesIn x chars lo hi (ms.map .one) where
  valid := by
    intro p hp
    obtain ⟨m, hm, rfl⟩ := List.mem_map.1 hp
    exact h.valid m hm
  order := by rw [List.pairwise_map]; exact h.order
  cover := by
    intro hc i a b c
    obtain ⟨m, hm, h⟩ := h.cover hc i a b c
    exact ⟨.one m, List.mem_map_of_mem hm, h⟩

theorem pieces_emit (ms : List CapMark) : (ms.map CapPiece.one).flatMap (·.emit x) = ms.flatMap (·.emit x) := by
  rw [List.flatMap_map]; rfl

theorem PiecesIn.append {lo mid lo' hi : Nat} {a b : List CapPiece} (ha : PiecesIn x chars lo mid a) (hb : PiecesIn x chars lo' hi b)
    (h1 : lo ≤ lo') (h2 : mid ≤ hi) (hm : mid < lo' ∨ (mid = lo' ∧ ∀ m ∈ b, m.start ≠ mid))
    (hgap : ∀ i, mid ≤ i → i < lo' → x.upperAt chars i = false) : PiecesIn x chars lo hi (a ++ b) where
  valid := by
    intro m hm
    rcases List.mem_append.1 hm with hm | hm
    · obtain ⟨q1, q2, q3⟩ := ha.valid m hm
      exact ⟨q1, by omega, q3⟩
    · obtain ⟨q1, q2, q3⟩ := hb.valid m hm
      exact ⟨by omega, q2, q3⟩
  order := by
    rw [List.pairwise_append]
    refine ⟨ha.order, hb.order, ?_⟩
    intro m hm' m' hm''
    obtain ⟨q1, q2, q3⟩ := ha.valid m hm'
    obtain ⟨r1, r2, r3⟩ := hb.valid m' hm''
    rcases hm with hm | ⟨hm, hm1⟩
    · omega
    · have := hm1 m' hm''
      omega
  cover := by
    intro hc i k1 k2 k3
    rcases Nat.lt_or_ge i mid with hi | hi
    · obtain ⟨m, hm, h⟩ := ha.cover hc i k1 hi k3
      exact ⟨m, by simp [hm], h⟩
    · rcases Nat.lt_or_ge i lo' with hi' | hi'
      · rw [hgap i hi hi'] at k3; cases k3
      · obtain ⟨m, hm, h⟩ := hb.cover hc i hi' k2 k3
        exact ⟨m, by simp [hm], h⟩

theorem PiecesIn.widen {lo lo' hi hi' : Nat} {ms : List CapPiece} (h : PiecesIn x chars lo hi ms) (h1 : lo' ≤ lo) (h2 : hi ≤ hi')
    (hl : ∀ i, lo' ≤ i → i < lo → x.upperAt chars i = false) (hr : ∀ i, hi ≤ i → i < hi' → x.upperAt chars i = false) :
    PiecesIn x chars lo' hi' ms where
  valid := by
    intro m hm
    obtain ⟨a, b, c⟩ := h.valid m hm
    exact ⟨by omega, by omega, c⟩
  order := h.order
  cover := by
    intro hc i a b c
    refine h.cover hc i ?_ ?_ c
    · rcases Nat.lt_or_ge i lo with hlt | hge
      · rw [hl i a hlt] at c; cases c
      · exact hge
    · rcases Nat.lt_or_ge i hi with hlt | hge
      · exact hlt
      · rw [hr i hge b] at c; cases c

/-- The runs of a group. -/
def runsOf (gs : List (Nat × Nat × Nat)) : List (Nat × Nat) := gs.map fun g => (g.1, g.2.1)

/-- The group that is being collected when everything before `pos` has been read. -/
structure GroupOk (x : CapIndicator) (chars : Text) (pos : Nat) (first : Nat × Nat × Nat) (others : List (Nat × Nat × Nat)) : Prop where
  whole : ∀ g ∈ first :: others, Whole x chars g
  order : (first :: others).Pairwise (fun a b => a.2.1 < b.1)
  bound : ∀ g ∈ first :: others, g.2.1 ≤ pos
  letters : ∀ i, first.1 ≤ i → i < pos → x.letterAt chars i = true →
    x.upperAt chars i = true ∧ ∃ g ∈ first :: others, g.1 ≤ i ∧ i < g.2.1

/-- The last word of a group. -/
def lastOf (first : Nat × Nat × Nat) (others : List (Nat × Nat × Nat)) : Nat × Nat × Nat := others.getLast?.getD first

theorem lastOf_mem (first : Nat × Nat × Nat) (others : List (Nat × Nat × Nat)) : lastOf first others ∈ first :: others := by
  unfold lastOf
  cases h : others.getLast? with
  | none => simp
  | some y => simp; exact .inr (List.mem_of_getLast? h)

theorem lastOf_getLast (first : Nat × Nat × Nat) (others : List (Nat × Nat × Nat)) :
    (first :: others).getLast? = some (lastOf first others) := by
  unfold lastOf
  cases others with
  | nil => rfl
  | cons a r => rw [List.getLast?_cons_cons]; cases h : (a :: r).getLast? <;> simp at h ⊢

theorem lastOf_max {first : Nat × Nat × Nat} {others : List (Nat × Nat × Nat)} (hw : ∀ g ∈ first :: others, Whole x chars g)
    (ho : (first :: others).Pairwise (fun a b => a.2.1 < b.1)) : ∀ g ∈ first :: others, g.1 ≤ (lastOf first others).1 ∧ g.2.1 ≤ (lastOf first others).2.1 := by
  rcases List.eq_nil_or_concat (first :: others) with hnil | ⟨y, u, hu⟩
  · cases hnil
  have hl := lastOf_getLast first others
  rw [hu, List.concat_eq_append] at hl
  simp at hl
  rw [← hl]
  intro g hg
  rw [hu, List.concat_eq_append] at hg ho
  rcases List.mem_append.1 hg with hg' | hg'
  · rw [List.pairwise_append] at ho
    have := ho.2.2 g hg' u (by simp)
    have h1 := (hw u (by rw [hu]; simp)).run.nonempty
    have h2 := (hw g (by rw [hu]; simp [hg'])).run.nonempty
    omega
  · simp at hg'; subst hg'; exact ⟨Nat.le_refl _, Nat.le_refl _⟩

theorem firstOf_min {first : Nat × Nat × Nat} {others : List (Nat × Nat × Nat)} (hw : ∀ g ∈ first :: others, Whole x chars g)
    (ho : (first :: others).Pairwise (fun a b => a.2.1 < b.1)) : ∀ g ∈ first :: others, first.1 ≤ g.1 := by
  intro g hg
  rw [List.pairwise_cons] at ho
  rcases List.mem_cons.1 hg with rfl | hg
  · exact Nat.le_refl _
  · have := ho.1 g hg
    have := (hw first (by simp)).run.nonempty
    omega

theorem group_pieces {pos : Nat} {first : Nat × Nat × Nat} {others : List (Nat × Nat × Nat)} (hg : GroupOk x chars pos first others)
    {ling : Nat} (hl : ling = spacedWords x chars (runsOf (first :: others))) :
    ∃ ps, x.group chars first others ling = ps.flatMap (·.emit x) ∧ PiecesIn x chars first.1 (lastOf first others).2.1 ps := by
  have hmax := lastOf_max hg.whole hg.order
  have hmin := firstOf_min hg.whole hg.order
  have hlm := lastOf_mem first others
  have hlb := hg.bound _ hlm
  have hper : ∃ ps, (first :: others).flatMap (x.wholeWord chars) = ps.flatMap (CapPiece.emit x) ∧
      PiecesIn x chars first.1 (lastOf first others).2.1 ps := by
    obtain ⟨ms, m1, m2, m3, m4⟩ := perWord_marks (first :: others) hg.whole hg.order
    refine ⟨ms.map .one, by rw [m1, pieces_emit], ?_⟩
    refine MarksIn.pieces ⟨?_, m3, ?_⟩
    · intro m hm
      obtain ⟨a, g, b, c, d⟩ := m2 m hm
      have := hmin g b
      have := (hmax g b).2
      exact ⟨by omega, by omega, a⟩
    · intro hc i a b c
      obtain ⟨-, g, h1, h2, h3⟩ := hg.letters i a (by omega) (upperAt_letterAt c)
      exact m4 hc g h1 i h2 h3 c
  have hpass : x.lenPhrase ≤ ling → Passage x chars first.1 (lastOf first others).2.1 (runsOf (first :: others)) := by
    intro h
    refine ⟨rfl, ?_, ?_, ?_, ?_, by omega⟩
    · unfold runsOf
      rw [List.getLast?_map, lastOf_getLast]; rfl
    · intro r hr
      obtain ⟨g, hgm, rfl⟩ := List.mem_map.1 hr
      exact (hg.whole g hgm).run
    · unfold runsOf
      rw [List.pairwise_map]; exact hg.order
    · intro i a b hlow
      have := (hg.letters i a (by omega) hlow.1).1
      rw [hlow.2] at this; cases this
  have hcov : ∀ i, first.1 ≤ i → i < (lastOf first others).2.1 → x.upperAt chars i = true → first.1 ≤ i ∧ i < (lastOf first others).2.1 :=
    fun _ a b _ => ⟨a, b⟩
  unfold CapIndicator.group
  change ∃ ps, (if ling ≥ x.lenPhrase then _ else _) = _ ∧ _
  split
  · next hlen =>
    cases hb : x.begcapsphrase with
    | some b =>
      have key : ∀ tail, (∀ m ∈ tail, first.1 ≤ m.start ∧ m.lastPos ≤ (lastOf first others).2.1 ∧ m.Valid x chars) →
          tail.Pairwise (fun a b => a.lastPos < b.start) →
          PiecesIn x chars first.1 (lastOf first others).2.1 [CapPiece.phrase first.1 (lastOf first others).2.1 tail] := by
        intro tail h1 h2
        refine ⟨?_, by simp, ?_⟩
        · intro m hm
          simp only [List.mem_singleton] at hm
          subst hm
          exact ⟨Nat.le_refl _, Nat.le_refl _, by simp [hb], ⟨_, hpass hlen⟩, h1, h2⟩
        · intro _ i a b c
          exact ⟨_, List.mem_singleton.2 rfl, a, b⟩
      obtain ⟨ms, m1, m2⟩ := wholeWord_marks (hg.whole _ hlm)
      cases he : x.endcapsphrase with
      | none =>
        refine ⟨[.phrase first.1 (lastOf first others).2.1 []], ?_, key [] (by simp) (by simp)⟩
        simp only [List.flatMap_cons, List.flatMap_nil, CapPiece.emit, hb, he, lastOf]
        cases x.endcaps <;> simp
      | some t =>
        cases hbf : x.endcapsphraseBefore with
        | false =>
          refine ⟨[.phrase first.1 (lastOf first others).2.1 []], ?_, key [] (by simp) (by simp)⟩
          simp [CapPiece.emit, hb, he, lastOf, hbf]
        | true =>
          refine ⟨[.phrase first.1 (lastOf first others).2.1 ms], ?_, key ms ?_ m2.order⟩
          · simp only [List.flatMap_cons, List.flatMap_nil, CapPiece.emit, hb, he, hbf, if_true, ← m1]
            simp [lastOf]
          · intro m hm
            obtain ⟨a, b, c⟩ := m2.valid m hm
            have := hmin _ hlm
            exact ⟨by omega, b, c⟩
    | none =>
      simp only
      cases hbc : x.begcaps with
      | none => exact hper
      | some b =>
        refine ⟨[.one (.mode first.1 (lastOf first others).2.1)], ?_, ?_⟩
        · simp only [List.flatMap_cons, List.flatMap_nil, CapPiece.emit, CapMark.emit, hbc, lastOf]
          cases x.endcaps <;> simp
        · exact (single_mark (x := x) (chars := chars) (m := .mode first.1 (lastOf first others).2.1)
            ⟨by simp [hbc], .inr ⟨hb, _, hpass hlen⟩⟩ (Nat.le_refl _) (Nat.le_refl _) hcov).pieces
  · exact hper

theorem spacedWords_snoc (a b : Nat × Nat) : ∀ (l : List (Nat × Nat)), (l ++ [a]).getLast? = some a →
    spacedWords x chars (l ++ [a] ++ [b]) =
      spacedWords x chars (l ++ [a]) + if ((chars.take b.1).drop a.2).any (x.spaces.contains ·) then 1 else 0 := by
  intro l
  induction l with
  | nil => intro _; simp [spacedWords]; omega
  | cons c l ih =>
    intro _
    have := ih (by simp)
    cases l with
    | nil => simp only [List.nil_append, List.cons_append, spacedWords] at this ⊢; omega
    | cons d l => simp only [List.cons_append, spacedWords] at this ⊢; omega

/-- The state of the loop: the group so far. -/
def LoopInv (x : CapIndicator) (chars : Text) (pos : Nat) (ling : Nat) (prev : Option Nat) : List (Nat × Nat × Nat) → Prop
  | [] => ling = 0 ∧ prev = none
  | g :: gs => GroupOk x chars pos g gs ∧ ling = spacedWords x chars (runsOf (g :: gs)) ∧ prev = some (lastOf g gs).2.1

theorem CapPiece.Valid.upper {m : CapPiece} (h : m.Valid x chars) : x.upperAt chars m.start = true := by
  cases m with
  | one m => exact CapMark.Valid.upper h
  | phrase p e tail =>
    obtain ⟨-, ⟨runs, h⟩, -⟩ := h
    have h1 := h.first
    cases runs with
    | nil => simp at h1
    | cons r rs =>
      simp at h1
      have := (h.each r (by simp)).first
      rw [h1] at this
      exact this

theorem loop_pieces : ∀ (ws : List (Nat × Nat)) (pos : Nat) (group : List (Nat × Nat × Nat)) (ling : Nat) (prev : Option Nat),
    pos ≤ chars.length →
    (∀ w ∈ ws, IsWord x chars w.1 w.2 ∧ pos ≤ w.1) → (group ≠ [] → ∀ w ∈ ws, pos < w.1) → ws.Pairwise (fun a b => a.2 < b.1) →
    (∀ i, pos ≤ i → x.WordAt chars i → ∃ w ∈ ws, w.1 ≤ i ∧ i < w.2) → LoopInv x chars pos ling prev group →
    ∃ ps, x.loop chars ws group ling prev = ps.flatMap (·.emit x) ∧
      PiecesIn x chars ((group.head?.map (·.1)).getD pos) chars.length ps := by
  intro ws
  induction ws with
  | nil =>
    intro pos group ling prev hpos _ _ _ hcov hinv
    have hno : ∀ i, pos ≤ i → x.upperAt chars i = false := by
      intro i hi
      cases hu : x.upperAt chars i with
      | false => rfl
      | true => obtain ⟨w, hw, -⟩ := hcov i hi (letterAt_word (upperAt_letterAt hu)); cases hw
    cases group with
    | nil =>
      refine ⟨[], rfl, by simp, by simp, ?_⟩
      intro _ i a b c
      rw [hno i (by simpa using a)] at c; cases c
    | cons g gs =>
      obtain ⟨h1, h2, h3⟩ := hinv
      obtain ⟨ps, p1, p2⟩ := group_pieces h1 h2
      refine ⟨ps, by rw [CapIndicator.loop]; exact p1, ?_⟩
      have hb := h1.bound _ (lastOf_mem g gs)
      refine p2.widen (by simp) (by omega) (by intro i a b; simp at a; omega) ?_
      intro i a b
      cases hu : x.upperAt chars i with
      | false => rfl
      | true =>
        rcases Nat.lt_or_ge i pos with h | h
        · have hm := lastOf_max h1.whole h1.order
          have hfm := firstOf_min h1.whole h1.order _ (lastOf_mem g gs)
          have := (h1.whole _ (lastOf_mem g gs)).run.nonempty
          obtain ⟨-, g', hg', k1, k2⟩ := h1.letters i (by omega) h (upperAt_letterAt hu)
          have := (hm g' hg').2
          omega
        · rw [hno i h] at hu; cases hu
  | cons w ws ih =>
    obtain ⟨s, e⟩ := w
    intro pos group ling prev hpos hws hstrict hord hcov hinv
    rw [List.pairwise_cons] at hord
    obtain ⟨hw, hps⟩ := hws (s, e) (by simp)
    simp only at hw hps
    have hne := hw.nonempty
    have hws' : ∀ w ∈ ws, IsWord x chars w.1 w.2 ∧ e ≤ w.1 :=
      fun w h => ⟨(hws w (by simp [h])).1, Nat.le_of_lt (hord.1 w h)⟩
    have hcov' : ∀ i, e ≤ i → x.WordAt chars i → ∃ w ∈ ws, w.1 ≤ i ∧ i < w.2 := by
      intro i hi hwd
      obtain ⟨w, hw1, hw2, hw3⟩ := hcov i (by omega) hwd
      rcases List.mem_cons.1 hw1 with rfl | hw1
      · simp only at hw3; omega
      · exact ⟨w, hw1, hw2, hw3⟩
    have hgap : ∀ i, pos ≤ i → i < s → x.letterAt chars i = false := by
      intro i h1 h2
      cases hl : x.letterAt chars i with
      | false => rfl
      | true =>
        obtain ⟨w, hw1, hw2, hw3⟩ := hcov i h1 (letterAt_word hl)
        rcases List.mem_cons.1 hw1 with rfl | hw1
        · simp only at hw2; omega
        · have := hord.1 w hw1
          simp only at this
          omega
    have hgapu : ∀ i, pos ≤ i → i < s → x.upperAt chars i = false := by
      intro i h1 h2
      cases hu : x.upperAt chars i with
      | false => rfl
      | true => have := hgap i h1 h2; rw [upperAt_letterAt hu] at this; cases this
    rw [CapIndicator.loop.eq_def]
    simp only
    cases hcl : x.classify chars s e with
    | some t =>
      simp only
      obtain ⟨c1, c2, c3, c4⟩ := classify_spec hw hcl
      have hnb : ∀ i, s ≤ i → i < t.1 → x.upperAt chars i = false := by
        intro i h1 h2
        cases hu : x.upperAt chars i with
        | false => rfl
        | true =>
          have := c1.run.nonempty
          have := (c4 i h1 (by omega) (upperAt_letterAt hu)).2.1; omega
      cases group with
      | nil =>
        obtain ⟨hl, hp⟩ := hinv
        subst hl hp
        simp only [List.nil_append, if_true]
        obtain ⟨ps, p1, p2⟩ := ih e [t] 1 (some t.2.1) hw.le hws' (fun _ w h => hord.1 w h) hord.2 hcov' (by
          refine ⟨⟨?_, by simp, ?_, ?_⟩, by simp [runsOf, spacedWords], rfl⟩
          · intro g hg; simp at hg; subst hg; exact c1
          · intro g hg; simp at hg; subst hg; exact c3
          · intro i h1 h2 h3
            have := c4 i (by omega) h2 h3
            exact ⟨this.1, t, by simp, this.2⟩)
        refine ⟨ps, p1, p2.widen (by simp; omega) (Nat.le_refl _) ?_ (by intro i a b; omega)⟩
        intro i a b
        simp at a b
        rcases Nat.lt_or_ge i s with h | h
        · exact hgapu i a h
        · exact hnb i h b
      | cons g gs =>
        obtain ⟨h1, h2, h3⟩ := hinv
        subst h3
        have hpos' := hstrict (by simp) (s, e) (by simp)
        simp only at hpos'
        obtain ⟨ps, p1, p2⟩ := ih e (g :: gs ++ [t])
          (if ((chars.take t.1).drop (lastOf g gs).2.1).any (x.spaces.contains ·) = true then ling + 1 else ling) (some t.2.1) hw.le hws'
          (fun _ w h => hord.1 w h) hord.2 hcov' (by
          rw [List.cons_append]
          refine ⟨⟨?_, ?_, ?_, ?_⟩, ?_, ?_⟩
          · intro g' hg'
            rw [← List.cons_append] at hg'
            rcases List.mem_append.1 hg' with hg' | hg'
            · exact h1.whole g' hg'
            · simp at hg'; subst hg'; exact c1
          · rw [← List.cons_append, List.pairwise_append]
            refine ⟨h1.order, by simp, ?_⟩
            intro a ha b hb
            simp at hb; subst hb
            have := h1.bound a ha
            omega
          · intro g' hg'
            rw [← List.cons_append] at hg'
            rcases List.mem_append.1 hg' with hg' | hg'
            · have := h1.bound g' hg'
              omega
            · simp at hg'; subst hg'; exact c3
          · intro i a b c
            rw [← List.cons_append]
            rcases Nat.lt_or_ge i pos with h | h
            · obtain ⟨k1, g', k2, k3⟩ := h1.letters i a h c
              exact ⟨k1, g', List.mem_append_left _ k2, k3⟩
            · rcases Nat.lt_or_ge i s with h' | h'
              · rw [hgap i h h'] at c; cases c
              · have := c4 i h' b c
                exact ⟨this.1, t, by simp, this.2⟩
          · rcases List.eq_nil_or_concat (g :: gs) with hnil | ⟨y, u, hu⟩
            · cases hnil
            have hlast : lastOf g gs = u := by
              have := lastOf_getLast g gs
              rw [hu, List.concat_eq_append] at this
              simpa using this.symm
            rw [← List.cons_append, h2, hu, List.concat_eq_append, hlast]
            unfold runsOf
            rw [List.map_append, List.map_append, List.map_append]
            have := spacedWords_snoc (x := x) (chars := chars) (u.1, u.2.1) (t.1, t.2.1) (y.map fun g => (g.1, g.2.1)) (by simp)
            simp only [List.map_cons, List.map_nil]
            rw [this]
            split <;> rfl
          · simp [lastOf])
        refine ⟨ps, p1, ?_⟩
        simpa using p2
    | none =>
      obtain ⟨ms, m1, m2⟩ := partialWord_marks hw
      have hms := m2.pieces
      obtain ⟨ps, p1, p2⟩ := ih e [] 0 none hw.le hws' (by simp) hord.2 hcov' ⟨rfl, rfl⟩
      simp only [List.head?_nil, Option.map_none, Option.getD_none] at p2
      have hnext : PiecesIn x chars s chars.length (ms.map .one ++ ps) := by
        refine hms.append p2 (by omega) hw.le (.inr ⟨rfl, ?_⟩) (by intro i a b; omega)
        intro m hm heq
        have := (p2.valid m hm).2.2.upper
        rw [heq] at this
        exact hw.after (letterAt_word (upperAt_letterAt this))
      cases group with
      | nil =>
        obtain ⟨hl, hp⟩ := hinv
        subst hl hp
        refine ⟨ms.map .one ++ ps, ?_, hnext.widen (by simpa using hps) (Nat.le_refl _) (by simpa using hgapu) (by intro i a b; omega)⟩
        simp only
        rw [m1, p1, List.flatMap_append, pieces_emit]
      | cons g gs =>
        obtain ⟨h1, h2, h3⟩ := hinv
        have hpos' := hstrict (by simp) (s, e) (by simp)
        simp only at hpos'
        obtain ⟨qs, q1, q2⟩ := group_pieces h1 h2
        have hb := h1.bound _ (lastOf_mem g gs)
        have hm := lastOf_max h1.whole h1.order
        have hfm := firstOf_min h1.whole h1.order _ (lastOf_mem g gs)
        have hrn := (h1.whole _ (lastOf_mem g gs)).run.nonempty
        refine ⟨qs ++ (ms.map .one ++ ps), ?_, ?_⟩
        · simp only
          rw [q1, m1, p1, List.flatMap_append, List.flatMap_append, pieces_emit]
        · refine q2.append hnext (by omega) (by omega) (.inl (by omega)) ?_
          intro i a b
          rcases Nat.lt_or_ge i pos with h | h
          · cases hu : x.upperAt chars i with
            | false => rfl
            | true =>
              obtain ⟨-, g', hg', k1, k2⟩ := h1.letters i (by omega) h (upperAt_letterAt hu)
              have := (hm g' hg').2
              omega
          · exact hgapu i h b

/-! ## The property -/

theorem passage_lt {p e : Nat} {runs : List (Nat × Nat)} (h : Passage x chars p e runs) : p < e := by
  have h1 := h.first
  have h2 := h.last
  cases runs with
  | nil => simp at h1
  | cons r rs =>
    simp at h1
    have hr := (h.each r (by simp)).nonempty
    rcases List.eq_nil_or_concat (r :: rs) with hnil | ⟨y, u, hu⟩
    · cases hnil
    rw [hu, List.concat_eq_append] at h2
    simp at h2
    have hu2 := (h.each u (by rw [hu]; simp)).nonempty
    have ho := h.order
    rw [List.pairwise_cons] at ho
    have : u ∈ r :: rs := by rw [hu]; simp
    rcases List.mem_cons.1 this with h' | h'
    · rw [← h'] at hr h1; omega
    · have := ho.1 u h'; omega

theorem CapMark.Valid.bounds {m : CapMark} (h : m.Valid x chars) : m.start < m.stop ∧ m.stop ≤ m.lastPos + 1 ∧ m.start ≤ m.lastPos := by
  cases m with
  | letter i => simp [CapMark.start, CapMark.stop, CapMark.lastPos]
  | word p e stop =>
    have := h.1.nonempty
    cases stop with
    | none => simp only [CapMark.start, CapMark.stop, CapMark.lastPos]; omega
    | some q =>
      have := h.2.2.2.2.1
      simp only [CapMark.start, CapMark.stop, CapMark.lastPos]; omega
  | mode p e =>
    have : p < e := by
      rcases h.2 with h | ⟨-, runs, h⟩
      · exact h.1.nonempty
      · exact passage_lt h
    simp only [CapMark.start, CapMark.stop, CapMark.lastPos]; omega

theorem CapPiece.Valid.bounds {m : CapPiece} (h : m.Valid x chars) : m.start < m.stop ∧ m.stop ≤ m.lastPos + 1 ∧ m.start ≤ m.lastPos := by
  cases m with
  | one m => exact CapMark.Valid.bounds h
  | phrase p e tail =>
    obtain ⟨-, ⟨runs, h⟩, -⟩ := h
    have := passage_lt h
    simp only [CapPiece.start, CapPiece.stop, CapPiece.lastPos]; omega

theorem CapMark.Valid.no_lower {m : CapMark} (h : m.Valid x chars) : ∀ i, m.start ≤ i → i < m.stop → ¬ x.LowAt chars i := by
  intro i h1 h2
  cases m with
  | letter j =>
    simp only [CapMark.start, CapMark.stop] at h1 h2
    have : i = j := by omega
    subst this
    intro hl
    have := h.1
    rw [hl.2] at this; cases this
  | word p e stop => exact (h.1.inside i h1 h2).2
  | mode p e =>
    rcases h.2 with h | ⟨-, runs, h⟩
    · exact (h.1.inside i h1 h2).2
    · exact h.upper i h1 h2

theorem CapPiece.Valid.no_lower {m : CapPiece} (h : m.Valid x chars) : ∀ i, m.start ≤ i → i < m.stop → ¬ x.LowAt chars i := by
  cases m with
  | one m => exact CapMark.Valid.no_lower h
  | phrase p e tail =>
    obtain ⟨-, ⟨runs, h⟩, -⟩ := h
    exact h.upper

theorem CapMark.emit_sorted {m : CapMark} (h : m.Valid x chars) : (m.emit x).Pairwise (fun a b => a.1 ≤ b.1) ∧
    ∀ q ∈ m.emit x, m.start ≤ q.1 ∧ q.1 ≤ m.lastPos := by
  have hb := h.bounds
  cases m with
  | letter i => cases hl : x.capsletter <;> simp [CapMark.emit, hl, CapMark.start, CapMark.lastPos]
  | word p e stop =>
    cases stop with
    | none =>
      cases hl : x.begcapsword with
      | none => simp [CapMark.emit, hl]
      | some t =>
        simp only [CapMark.start, CapMark.stop, CapMark.lastPos] at hb
        simp [CapMark.emit, hl, CapMark.start, CapMark.lastPos]; omega
    | some q =>
      simp only [CapMark.start, CapMark.stop, CapMark.lastPos] at hb
      cases hl : x.begcapsword <;> cases he : x.endcapsword <;>
        simp [CapMark.emit, hl, he, CapMark.start, CapMark.lastPos] <;> omega
  | mode p e =>
    simp only [CapMark.start, CapMark.stop, CapMark.lastPos] at hb
    cases hl : x.begcaps <;> cases he : x.endcaps <;>
      simp [CapMark.emit, hl, he, CapMark.start, CapMark.lastPos] <;> omega

theorem marks_emit_sorted {ms : List CapMark} (hv : ∀ m ∈ ms, m.Valid x chars) (ho : ms.Pairwise (fun a b => a.lastPos < b.start)) :
    (ms.flatMap (·.emit x)).Pairwise (fun a b => a.1 ≤ b.1) := by
  rw [List.pairwise_flatMap]
  refine ⟨fun m hm => (CapMark.emit_sorted (hv m hm)).1, ho.imp_of_mem ?_⟩
  intro a b ha hb hab u hu v hv'
  have h1 := (CapMark.emit_sorted (hv a ha)).2 u hu
  have h2 := (CapMark.emit_sorted (hv b hb)).2 v hv'
  omega

theorem CapPiece.emit_sorted {m : CapPiece} (h : m.Valid x chars) : (m.emit x).Pairwise (fun a b => a.1 ≤ b.1) ∧
    ∀ q ∈ m.emit x, m.start ≤ q.1 ∧ q.1 ≤ m.lastPos := by
  cases m with
  | one m => exact CapMark.emit_sorted h
  | phrase p e tail =>
    have hb := CapPiece.Valid.bounds h
    obtain ⟨h1, -, h2, h3⟩ := h
    simp only [CapPiece.start, CapPiece.stop, CapPiece.lastPos] at hb ⊢
    have hrest : ∀ rest : List (Nat × Resolved), rest.Pairwise (fun a b => a.1 ≤ b.1) → (∀ q ∈ rest, p ≤ q.1 ∧ q.1 ≤ e) →
        (x.begcapsphrase.toList.map (fun t => (p, t)) ++ rest).Pairwise (fun a b => a.1 ≤ b.1) ∧
        ∀ q ∈ x.begcapsphrase.toList.map (fun t => (p, t)) ++ rest, p ≤ q.1 ∧ q.1 ≤ e := by
      intro rest r1 r2
      cases x.begcapsphrase with
      | none => exact ⟨by simpa using r1, by simpa using r2⟩
      | some t =>
        simp only [Option.toList_some, List.map_cons, List.map_nil, List.cons_append, List.nil_append]
        refine ⟨List.pairwise_cons.2 ⟨fun a ha => (r2 a ha).1, r1⟩, ?_⟩
        intro q hq
        rcases List.mem_cons.1 hq with rfl | hq
        · simp only; omega
        · exact r2 q hq
    unfold CapPiece.emit
    apply hrest
    · split
      · split
        · exact marks_emit_sorted (fun m hm => (h2 m hm).2.2) h3
        · simp
      · cases x.endcaps <;> simp
    · split
      · split
        · intro q hq
          rw [List.mem_flatMap] at hq
          obtain ⟨m, hm, hq⟩ := hq
          obtain ⟨a, b, c⟩ := h2 m hm
          have := (CapMark.emit_sorted c).2 q hq
          omega
        · intro q hq
          simp at hq; subst hq; simp only; omega
      · intro q hq
        cases he : x.endcaps with
        | none => simp [he] at hq
        | some t => simp [he] at hq; subst hq; simp only; omega

/-- **C27**: for every text and every set of capital indicators the indicators written are those of a list of announcements
such that

* each announcement is in order (`CapPiece.Valid`): the letter sign stands at a single upper-case letter, the word sign at the
  start of a maximal run of upper-case letters, with a terminator exactly if the word goes on with a letter, and then at that
  letter; the mode signs enclose a run or a passage; a phrase is a passage of at least `lencapsphrase` words;
* no letter that is not an upper-case letter is announced;
* announcements do not overlap, and nothing is written outside the text;
* every upper-case letter is announced exactly once, provided that there is a letter sign or a mode sign. -/
theorem C27_announcements (x : CapIndicator) (input : Text) (hx : x.isIndicating = true) :
    ∃ pieces : List CapPiece, x.precompute input = pieces.flatMap (·.emit x) ∧
      (∀ p ∈ pieces, p.Valid x input ∧ p.lastPos ≤ input.length ∧ ∀ i, p.start ≤ i → i < p.stop → ¬ x.LowAt input i) ∧
      pieces.Pairwise (fun p q => p.lastPos < q.start ∧ p.stop ≤ q.start) ∧
      (x.capsletter.isSome ∨ x.begcaps.isSome → ∀ i, x.upperAt input i = true →
        ∃ p ∈ pieces, (p.start ≤ i ∧ i < p.stop) ∧ ∀ q ∈ pieces, q.start ≤ i → i < q.stop → q = p) := by
  obtain ⟨w1, w2, w3⟩ := words_spec (x := x) (chars := input)
  obtain ⟨ps, p1, p2⟩ := loop_pieces (x := x) (chars := input) (x.words input) 0 [] 0 none (Nat.zero_le _)
    (fun w h => ⟨w1 w h, Nat.zero_le _⟩) (by simp) w2 (fun i _ h => w3 i h) ⟨rfl, rfl⟩
  have hsort : (ps.flatMap (·.emit x)).Pairwise (fun a b => a.1 ≤ b.1) := by
    rw [List.pairwise_flatMap]
    refine ⟨fun m hm => (CapPiece.emit_sorted (p2.valid m hm).2.2).1, p2.order.imp_of_mem ?_⟩
    intro a b ha hb hab u hu v hv'
    have h1 := (CapPiece.emit_sorted (p2.valid a ha).2.2).2 u hu
    have h2 := (CapPiece.emit_sorted (p2.valid b hb).2.2).2 v hv'
    omega
  have hord : ps.Pairwise (fun p q => p.lastPos < q.start ∧ p.stop ≤ q.start) := by
    refine p2.order.imp_of_mem ?_
    intro a b ha hb hab
    have := (p2.valid a ha).2.2.bounds
    exact ⟨hab, by omega⟩
  refine ⟨ps, ?_, ?_, hord, ?_⟩
  · unfold CapIndicator.precompute
    rw [hx, p1]
    simp only [Bool.not_true, Bool.false_eq_true, if_false]
    exact sortByPos_self _ hsort
  · intro p hp
    obtain ⟨a, b, c⟩ := p2.valid p hp
    exact ⟨c, b, c.no_lower⟩
  · intro hc i hi
    obtain ⟨p, hp, h1, h2⟩ := p2.cover hc i (by simp) (letterAt_lt (upperAt_letterAt hi)) hi
    refine ⟨p, hp, ⟨h1, h2⟩, ?_⟩
    intro q hq h3 h4
    have key : ∀ {l : List CapPiece}, l.Pairwise (fun p q => p.lastPos < q.start ∧ p.stop ≤ q.start) → p ∈ l → q ∈ l → q = p := by
      intro l hl hp hq
      induction l with
      | nil => cases hp
      | cons a l ih =>
        rw [List.pairwise_cons] at hl
        rcases List.mem_cons.1 hp with hp' | hp'
        · rcases List.mem_cons.1 hq with hq' | hq'
          · rw [hp', hq']
          · have := (hl.1 q hq').2; rw [← hp'] at this; omega
        · rcases List.mem_cons.1 hq with hq' | hq'
          · have := (hl.1 p hp').2; rw [← hq'] at this; omega
          · exact ih hl.2 hp' hq'
    exact key hord hp hq

/-- **C27**, positions: capital indicators lie in the text or right at its end and come in order. -/
theorem C27_positions (x : CapIndicator) (input : Text) :
    (∀ q ∈ x.precompute input, q.1 ≤ input.length) ∧ (x.precompute input).Pairwise (fun a b => a.1 ≤ b.1) := by
  cases hx : x.isIndicating with
  | false => simp [CapIndicator.precompute, hx]
  | true =>
    refine ⟨?_, ?_⟩
    · obtain ⟨ps, h1, h2, h3, -⟩ := C27_announcements x input hx
      rw [h1]
      intro q hq
      rw [List.mem_flatMap] at hq
      obtain ⟨p, hp, hq⟩ := hq
      obtain ⟨a, b, -⟩ := h2 p hp
      have := (CapPiece.emit_sorted a).2 q hq
      omega
    · unfold CapIndicator.precompute
      rw [hx]
      exact stableSort_sorted respects_pos _

/-- **C27**, terminators: if the word terminator `t` is used for nothing else, it stands only at a letter that is not
upper-case, and the word sign stands before it in the same word with no other kind of letter in between. -/
theorem C27_word_terminators (x : CapIndicator) (input : Text) (t : Resolved) (ht : x.endcapsword = some t)
    (n1 : x.capsletter ≠ some t) (n2 : x.begcapsword ≠ some t) (n3 : x.begcaps ≠ some t) (n4 : x.endcaps ≠ some t)
    (n5 : x.begcapsphrase ≠ some t) (n6 : x.endcapsphrase ≠ some t) (q : Nat) (hq : (q, t) ∈ x.precompute input) :
    x.LowAt input q ∧ ∃ p b, x.begcapsword = some b ∧ (p, b) ∈ x.precompute input ∧ p < q ∧ x.upperAt input p = true ∧
      ∀ k, p ≤ k → k < q → x.WordAt input k ∧ ¬ x.LowAt input k := by
  cases hx : x.isIndicating with
  | false => simp [CapIndicator.precompute, hx] at hq
  | true =>
    obtain ⟨ps, h1, h2, h3, -⟩ := C27_announcements x input hx
    rw [h1] at hq ⊢
    rw [List.mem_flatMap] at hq
    obtain ⟨p, hp, hq⟩ := hq
    obtain ⟨hv, -, -⟩ := h2 p hp
    have hmark : ∀ m : CapMark, m.Valid x input → (q, t) ∈ m.emit x → x.LowAt input q ∧ ∃ p b, x.begcapsword = some b ∧
        (p, b) ∈ m.emit x ∧ p < q ∧ x.upperAt input p = true ∧ ∀ k, p ≤ k → k < q → x.WordAt input k ∧ ¬ x.LowAt input k := by
      intro m hv hq
      cases m with
      | letter i =>
        simp only [CapMark.emit, List.mem_map, Option.mem_toList, Prod.mk.injEq] at hq
        obtain ⟨a, ha, -, rfl⟩ := hq
        exact absurd ha n1
      | mode p e =>
        simp only [CapMark.emit, List.mem_append, List.mem_map, Option.mem_toList, Prod.mk.injEq] at hq
        rcases hq with ⟨a, ha, -, rfl⟩ | ⟨a, ha, -, rfl⟩
        · exact absurd ha n3
        · exact absurd ha n4
      | word p e stop =>
        cases stop with
        | none =>
          simp only [CapMark.emit, List.mem_append, List.mem_map, Option.mem_toList, Prod.mk.injEq, List.not_mem_nil, or_false] at hq
          obtain ⟨a, ha, -, rfl⟩ := hq
          exact absurd ha n2
        | some q' =>
          simp only [CapMark.emit, List.mem_append, List.mem_map, Option.mem_toList, Prod.mk.injEq] at hq
          rcases hq with ⟨a, ha, -, rfl⟩ | ⟨a, ha, rfl, rfl⟩
          · exact absurd ha n2
          · obtain ⟨v1, v2, v3, -, v4, v5, v6⟩ := hv
            obtain ⟨b, hb⟩ := Option.isSome_iff_exists.1 v2
            have hne := v1.nonempty
            refine ⟨v5, p, b, hb, by simp [CapMark.emit, hb], by omega, v1.first, ?_⟩
            intro k k1 k2
            rcases Nat.lt_or_ge k e with h | h
            · exact v1.inside k k1 h
            · obtain ⟨a1, a2⟩ := v6 k h k2
              refine ⟨a1, ?_⟩
              intro hl
              rw [hl.1] at a2; cases a2
    cases p with
    | one m =>
      obtain ⟨a, p', b, hb, hm, hr⟩ := hmark m hv hq
      exact ⟨a, p', b, hb, List.mem_flatMap.2 ⟨_, hp, hm⟩, hr⟩
    | phrase p e tail =>
      simp only [CapPiece.emit] at hq
      rcases List.mem_append.1 hq with hq' | hq'
      · simp only [List.mem_map, Option.mem_toList, Prod.mk.injEq] at hq'
        obtain ⟨a, ha, -, rfl⟩ := hq'
        exact absurd ha n5
      · split at hq'
        · next t' ht' =>
          split at hq'
          · next hbf =>
            rw [List.mem_flatMap] at hq'
            obtain ⟨m, hm, hq'⟩ := hq'
            obtain ⟨a, p', b, hb, hm', hr⟩ := hmark m (hv.2.2.1 m hm).2.2 hq'
            refine ⟨a, p', b, hb, List.mem_flatMap.2 ⟨_, hp, ?_⟩, hr⟩
            simp only [CapPiece.emit, ht', hbf, if_true]
            exact List.mem_append_right _ (List.mem_flatMap.2 ⟨m, hm, hm'⟩)
          · simp only [List.mem_singleton, Prod.mk.injEq] at hq'
            obtain ⟨-, rfl⟩ := hq'
            exact absurd ht' n6
        · simp only [List.mem_map, Option.mem_toList, Prod.mk.injEq] at hq'
          obtain ⟨a, ha, -, rfl⟩ := hq'
          exact absurd ha n4

/-! ## Concrete cases -/

/-- A table with all capital indicators. -/
def demoCap : CapIndicator where
  upper := "ABCDEFGHIJKLMNOPQRSTUVWXYZ".toList
  modeChars := ['-']
  letters := "ABCDEFGHIJKLMNOPQRSTUVWXYZabcdefghijklmnopqrstuvwxyz".toList
  spaces := [' ']
  capsletter := some (indication ['l'] ⟨.other, 0⟩)
  begcapsword := some (indication ['w'] ⟨.other, 1⟩)
  endcapsword := some (indication ['x'] ⟨.other, 2⟩)
  begcaps := none
  endcaps := none
  begcapsphrase := some (indication ['p'] ⟨.other, 3⟩)
  endcapsphrase := some (indication ['q'] ⟨.other, 4⟩)
  endcapsphraseBefore := false
  lenPhrase := 3

/-- Non-vacuity of the C27 theorems: a letter, a word, a word with terminator and a phrase. -/
example : (demoCap.precompute "An IBM-PC ABCde AB C DE".toList).map (fun q => (q.1, q.2.output)) =
    [(0, ['l']), (3, ['w']), (10, ['w']), (13, ['x']), (16, ['p']), (23, ['q'])] := by
  decide +kernel

example : demoCap.isIndicating = true := rfl

/-- Without a letter sign and without mode signs, a run at the start of a word cannot be announced: the proviso of
`C27_announcements` is needed. -/
theorem C27_unannounced_wrong :
    ({demoCap with capsletter := none, endcapsword := none} : CapIndicator).precompute "ABc".toList = [] := by
  decide +kernel

end Louis
