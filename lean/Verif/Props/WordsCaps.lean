import Verif.Props.WordsTable
import Verif.Props.TableSigns

/-!
# C75: capital signs on both sides of a blank
-/

namespace Louis

/-- The signs, `n` places further on. -/
def later (n : Nat) (l : List (Nat × Resolved)) : List (Nat × Resolved) := l.map fun q => (n + q.1, q.2)

theorem later_append (n : Nat) (a c : List (Nat × Resolved)) : later n (a ++ c) = later n a ++ later n c := by
  simp [later]

/-! ## Runs of upper-case letters, wherever the words are -/

/-- All runs of upper-case letters of the text, in order. -/
def AllRuns (x : CapIndicator) (text : Text) (runs : List (Nat × Nat)) : Prop :=
  (∀ r, r ∈ runs ↔ UpperRun x text r.1 r.2) ∧ runs.Pairwise (fun r s => r.2 < s.1)

theorem AllRuns.unique {x : CapIndicator} {text : Text} {runs runs' : List (Nat × Nat)} (h : AllRuns x text runs)
    (h' : AllRuns x text runs') : runs = runs' := by
  have irr : ∀ a b : Nat × Nat, (a.1 < a.2 ∧ b.1 < b.2 ∧ a.2 < b.1) → (b.1 < b.2 ∧ a.1 < a.2 ∧ b.2 < a.1) → False := by
    intro a b h k; omega
  refine ordered_ext (r := fun a b : Nat × Nat => a.1 < a.2 ∧ b.1 < b.2 ∧ a.2 < b.1) irr ?_ ?_ (fun w => (h.1 w).trans (h'.1 w).symm)
  · exact h.2.imp_of_mem fun ha hb hab => ⟨((h.1 _).1 ha).nonempty, ((h.1 _).1 hb).nonempty, hab⟩
  · exact h'.2.imp_of_mem fun ha hb hab => ⟨((h'.1 _).1 ha).nonempty, ((h'.1 _).1 hb).nonempty, hab⟩

theorem RunsIn.append {x : CapIndicator} {text : Text} {ws ws' runs runs' : List (Nat × Nat)} (h : RunsIn x text ws runs)
    (h' : RunsIn x text ws' runs') (ho : ∀ w ∈ ws, ∀ w' ∈ ws', w.2 < w'.1) : RunsIn x text (ws ++ ws') (runs ++ runs') := by
  constructor
  · intro r
    rw [List.mem_append, h.1, h'.1]
    constructor
    · rintro (⟨h1, w, hw, h2⟩ | ⟨h1, w, hw, h2⟩)
      · exact ⟨h1, w, List.mem_append_left _ hw, h2⟩
      · exact ⟨h1, w, List.mem_append_right _ hw, h2⟩
    · rintro ⟨h1, w, hw, h2⟩
      rcases List.mem_append.1 hw with hw | hw
      · exact .inl ⟨h1, w, hw, h2⟩
      · exact .inr ⟨h1, w, hw, h2⟩
  · rw [List.pairwise_append]
    refine ⟨h.2, h'.2, fun r hr s hs => ?_⟩
    obtain ⟨-, w, hw, h1, h2⟩ := (h.1 r).1 hr
    obtain ⟨-, w', hw', h3, h4⟩ := (h'.1 s).1 hs
    have := ho w hw w' hw'
    omega

theorem RunsCapSigns.append {x : CapIndicator} {text : Text} {runs runs' : List (Nat × Nat)} {out out' : List (Nat × Resolved)}
    (h : RunsCapSigns x text runs out) (h' : RunsCapSigns x text runs' out') : RunsCapSigns x text (runs ++ runs') (out ++ out') := by
  obtain ⟨parts, h1, rfl⟩ := h
  obtain ⟨parts', h2, rfl⟩ := h'
  exact ⟨parts ++ parts', h1.append h2, by simp⟩

/-- Without signs for passages the signs are those of the runs. -/
theorem capSigns_runs {x : CapIndicator} {text : Text} (h1 : x.begcaps = none) (h2 : x.begcapsphrase = none) :
    ∀ {ws : List (Nat × Nat)} {out : List (Nat × Resolved)}, CapSigns x text ws out → ws.Pairwise (fun v w => v.2 < w.1) →
      ∃ runs, RunsIn x text ws runs ∧ RunsCapSigns x text runs out := by
  intro ws out h
  induction h with
  | done => exact fun _ => ⟨[], ⟨by simp, .nil⟩, .nil⟩
  | @mixed w ws runs out rest _ hr hs _ ih =>
    intro hp
    rw [List.pairwise_cons] at hp
    obtain ⟨runs', hr', hs'⟩ := ih hp.2
    refine ⟨runs ++ runs', hr.append hr' ?_, hs.append hs'⟩
    intro w' hw' v hv
    rw [List.mem_singleton.1 hw']
    exact hp.1 v hv
  | @block bs ws runs out rest _ _ _ hr hb _ ih =>
    intro hp
    rw [List.pairwise_append] at hp
    obtain ⟨runs', hr', hs'⟩ := ih hp.2.1
    refine ⟨runs ++ runs', hr.append hr' hp.2.2, RunsCapSigns.append ?_ hs'⟩
    cases hb with
    | phrase _ h => rw [h2] at h; cases h
    | mode _ _ h => rw [h1] at h; cases h
    | words _ h => exact h

theorem runsIn_all {x : CapIndicator} {text : Text} {ws runs : List (Nat × Nat)} (hw : AreWords x text ws) (h : RunsIn x text ws runs) :
    AllRuns x text runs := by
  refine ⟨fun r => (h.1 r).trans ⟨fun h => h.1, fun hr => ⟨hr, ?_⟩⟩, h.2⟩
  obtain ⟨w, hw', h1, h2⟩ := words_spec.2.2 r.1 (hr.inside r.1 (Nat.le_refl _) hr.nonempty).1
  rw [← AreWords.unique hw (words_areWords x text)] at hw'
  refine ⟨w, hw', h1, ?_⟩
  rcases Nat.lt_or_ge w.2 r.2 with h | h
  · exact absurd (hr.inside w.2 (by omega) h).1 ((hw.1 w).1 hw').after
  · exact h

/-- Without signs for passages, the capital signs of a text are those of its runs. -/
theorem capSigns_all {x : CapIndicator} {text : Text} (h1 : x.begcaps = none) (h2 : x.begcapsphrase = none)
    {out : List (Nat × Resolved)} (h : ∀ ws, AreWords x text ws → CapSigns x text ws out) :
    ∃ runs, AllRuns x text runs ∧ RunsCapSigns x text runs out := by
  have hw := words_areWords x text
  obtain ⟨runs, hr, hs⟩ := capSigns_runs h1 h2 (h _ hw) hw.2
  exact ⟨runs, runsIn_all hw hr, hs⟩

/-! ## Two sides of a blank -/

section

variable {x : CapIndicator} {w v : Text} {b : Char}

theorem letter_left {k : Nat} (h : k < w.length) : x.letterAt (w ++ b :: v) k = x.letterAt w k := by
  unfold CapIndicator.letterAt; rw [at_left h]

theorem letter_right (k : Nat) : x.letterAt (w ++ b :: v) (w.length + 1 + k) = x.letterAt v k := by
  unfold CapIndicator.letterAt; rw [at_right]

theorem upper_left {k : Nat} (h : k < w.length) : x.upperAt (w ++ b :: v) k = x.upperAt w k := by
  unfold CapIndicator.upperAt; rw [at_left h]

theorem upper_right (k : Nat) : x.upperAt (w ++ b :: v) (w.length + 1 + k) = x.upperAt v k := by
  unfold CapIndicator.upperAt; rw [at_right]

theorem word_left {k : Nat} (h : k < w.length) : x.WordAt (w ++ b :: v) k ↔ x.WordAt w k := by
  unfold CapIndicator.WordAt; rw [at_left h]

theorem word_right (k : Nat) : x.WordAt (w ++ b :: v) (w.length + 1 + k) ↔ x.WordAt v k := by
  unfold CapIndicator.WordAt; rw [at_right]

theorem low_left {k : Nat} (h : k < w.length) : x.LowAt (w ++ b :: v) k ↔ x.LowAt w k := by
  unfold CapIndicator.LowAt; rw [letter_left h, upper_left h]

theorem low_right (k : Nat) : x.LowAt (w ++ b :: v) (w.length + 1 + k) ↔ x.LowAt v k := by
  unfold CapIndicator.LowAt; rw [letter_right, upper_right]

variable (hb : x.isWordChar b = false)

include hb

theorem word_blank : ¬ x.WordAt (w ++ b :: v) w.length := by
  rintro ⟨c, e, h⟩
  rw [at_blank] at e
  cases e
  rw [isWordChar_iff.2 h] at hb
  cases hb

theorem word_bound {p k : Nat} (h1 : p ≤ w.length) (h : ∀ j, p ≤ j → j ≤ k → x.WordAt (w ++ b :: v) j) : k < w.length ∨ k < p := by
  rcases Nat.lt_or_ge k w.length with h2 | h2
  · exact .inl h2
  · exact absurd (h w.length h1 h2) (word_blank hb)

omit hb in
theorem word_lt {text : Text} {k : Nat} (h : x.WordAt text k) : k < text.length := by
  obtain ⟨c, e, -⟩ := h
  exact (List.getElem?_eq_some_iff.1 e).1

theorem run_left {p e : Nat} (hp : p < w.length) : UpperRun x (w ++ b :: v) p e ↔ UpperRun x w p e := by
  constructor
  · intro h
    have he : e ≤ w.length := by
      rcases Nat.lt_or_ge w.length e with h1 | h1
      · exact absurd (h.inside w.length (by omega) h1).1 (word_blank hb)
      · exact h1
    have hn := h.nonempty
    refine ⟨hn, by rw [← upper_left hp]; exact h.first, by rw [← upper_left (by omega)]; exact h.last, ?_, ?_, ?_⟩
    · intro k k1 k2
      have := h.inside k k1 k2
      rwa [word_left (by omega), low_left (by omega)] at this
    · intro j j1 j2
      have hj := letterAt_lt (upperAt_letterAt j2)
      obtain ⟨k, k1, k2, k3⟩ := h.right j j1 (by rw [upper_left hj]; exact j2)
      rw [word_left (by omega), low_left (by omega)] at k3
      exact ⟨k, k1, k2, k3⟩
    · intro j j1 j2
      obtain ⟨k, k1, k2, k3⟩ := h.left j j1 (by rw [upper_left (by omega)]; exact j2)
      rw [word_left (by omega), low_left (by omega)] at k3
      exact ⟨k, k1, k2, k3⟩
  · intro h
    have he : e - 1 < w.length := letterAt_lt (upperAt_letterAt h.last)
    have hn := h.nonempty
    refine ⟨hn, by rw [upper_left hp]; exact h.first, by rw [upper_left (by omega)]; exact h.last, ?_, ?_, ?_⟩
    · intro k k1 k2
      have := h.inside k k1 k2
      rwa [word_left (by omega), low_left (by omega)]
    · intro j j1 j2
      rcases Nat.lt_or_ge j w.length with hj | hj
      · obtain ⟨k, k1, k2, k3⟩ := h.right j j1 (by rw [← upper_left hj]; exact j2)
        exact ⟨k, k1, k2, by rwa [word_left (by omega), low_left (by omega)]⟩
      · exact ⟨w.length, by omega, hj, .inl (word_blank hb)⟩
    · intro j j1 j2
      obtain ⟨k, k1, k2, k3⟩ := h.left j j1 (by rw [← upper_left (by omega)]; exact j2)
      exact ⟨k, k1, k2, by rwa [word_left (by omega), low_left (by omega)]⟩

theorem run_right {p e : Nat} : UpperRun x (w ++ b :: v) (w.length + 1 + p) (w.length + 1 + e) ↔ UpperRun x v p e := by
  constructor
  · intro h
    have hn := h.nonempty
    refine ⟨by omega, by rw [← upper_right]; exact h.first, ?_, ?_, ?_, ?_⟩
    · rw [← upper_right, show w.length + 1 + (e - 1) = w.length + 1 + e - 1 by omega]; exact h.last
    · intro k k1 k2
      have := h.inside (w.length + 1 + k) (by omega) (by omega)
      rwa [word_right, low_right] at this
    · intro j j1 j2
      obtain ⟨k, k1, k2, k3⟩ := h.right (w.length + 1 + j) (by omega) (by rw [upper_right]; exact j2)
      obtain ⟨k', rfl⟩ : ∃ k', k = w.length + 1 + k' := ⟨k - w.length - 1, by omega⟩
      rw [word_right, low_right] at k3
      exact ⟨k', by omega, by omega, k3⟩
    · intro j j1 j2
      obtain ⟨k, k1, k2, k3⟩ := h.left (w.length + 1 + j) (by omega) (by rw [upper_right]; exact j2)
      obtain ⟨k', rfl⟩ : ∃ k', k = w.length + 1 + k' := ⟨k - w.length - 1, by omega⟩
      rw [word_right, low_right] at k3
      exact ⟨k', by omega, by omega, k3⟩
  · intro h
    have hn := h.nonempty
    refine ⟨by omega, by rw [upper_right]; exact h.first, ?_, ?_, ?_, ?_⟩
    · rw [show w.length + 1 + e - 1 = w.length + 1 + (e - 1) by omega, upper_right]; exact h.last
    · intro k k1 k2
      obtain ⟨k', rfl⟩ : ∃ k', k = w.length + 1 + k' := ⟨k - w.length - 1, by omega⟩
      rw [word_right, low_right]
      exact h.inside k' (by omega) (by omega)
    · intro j j1 j2
      obtain ⟨j', rfl⟩ : ∃ k', j = w.length + 1 + k' := ⟨j - w.length - 1, by omega⟩
      rw [upper_right] at j2
      obtain ⟨k, k1, k2, k3⟩ := h.right j' (by omega) j2
      exact ⟨w.length + 1 + k, by omega, by omega, by rwa [word_right, low_right]⟩
    · intro j j1 j2
      rcases Nat.lt_or_ge w.length j with hj | hj
      · obtain ⟨j', rfl⟩ : ∃ k', j = w.length + 1 + k' := ⟨j - w.length - 1, by omega⟩
        rw [upper_right] at j2
        obtain ⟨k, k1, k2, k3⟩ := h.left j' (by omega) j2
        exact ⟨w.length + 1 + k, by omega, by omega, by rwa [word_right, low_right]⟩
      · exact ⟨w.length, hj, by omega, .inl (word_blank hb)⟩

theorem runs_split {r₁ r₂ : List (Nat × Nat)} (h1 : AllRuns x w r₁) (h2 : AllRuns x v r₂) :
    AllRuns x (w ++ b :: v) (r₁ ++ r₂.map fun r => (w.length + 1 + r.1, w.length + 1 + r.2)) := by
  have bound : ∀ r ∈ r₁, r.1 < w.length ∧ r.2 ≤ w.length := by
    intro r hr
    have := (h1.1 r).1 hr
    have h3 := letterAt_lt (upperAt_letterAt this.last)
    have h4 := this.nonempty
    omega
  constructor
  · intro r
    rw [List.mem_append]
    rcases Nat.lt_trichotomy r.1 w.length with hr | hr | hr
    · rw [run_left hb hr, h1.1]
      refine ⟨fun h => h.elim id fun h => ?_, .inl⟩
      obtain ⟨r', -, rfl⟩ := List.mem_map.1 h
      simp at hr
      omega
    · constructor
      · rintro (h | h)
        · have := bound r h; omega
        · obtain ⟨r', -, rfl⟩ := List.mem_map.1 h
          simp at hr
          omega
      · intro h
        have := (h.inside r.1 (Nat.le_refl _) h.nonempty).1
        rw [hr] at this
        exact absurd this (word_blank hb)
    · constructor
      · rintro (h | h)
        · have := bound r h; omega
        · obtain ⟨r', h', rfl⟩ := List.mem_map.1 h
          exact (run_right hb).2 ((h2.1 r').1 h')
      · intro h
        have hn := h.nonempty
        obtain ⟨p, hp⟩ : ∃ p, r.1 = w.length + 1 + p := ⟨r.1 - w.length - 1, by omega⟩
        obtain ⟨e, he⟩ : ∃ e, r.2 = w.length + 1 + e := ⟨r.2 - w.length - 1, by omega⟩
        rw [hp, he] at h
        exact .inr (List.mem_map.2 ⟨(p, e), (h2.1 _).2 ((run_right hb).1 h), by rw [← hp, ← he]⟩)
  · rw [List.pairwise_append, List.pairwise_map]
    refine ⟨h1.2, h2.2.imp fun h => by simp only; omega, fun r hr s hs => ?_⟩
    obtain ⟨s', -, rfl⟩ := List.mem_map.1 hs
    have := (bound r hr).2
    simp only
    omega

theorem ends_left {e : Nat} (he : e ≤ w.length) : EndsWord x (w ++ b :: v) e ↔ EndsWord x w e := by
  constructor
  · intro h q hq hk
    have hlt := word_lt (hk q hq (Nat.le_refl _))
    rw [← letter_left (b := b) (v := v) hlt]
    exact h q hq fun k k1 k2 => (word_left (by omega)).2 (hk k k1 k2)
  · intro h q hq hk
    rcases word_bound hb he hk with hlt | hlt
    · rw [letter_left hlt]
      exact h q hq fun k k1 k2 => (word_left (by omega)).1 (hk k k1 k2)
    · omega

omit hb in
theorem ends_right {e : Nat} : EndsWord x (w ++ b :: v) (w.length + 1 + e) ↔ EndsWord x v e := by
  constructor
  · intro h q hq hk
    rw [← letter_right (w := w) (b := b) q]
    refine h _ (by omega) fun k k1 k2 => ?_
    obtain ⟨k', rfl⟩ : ∃ k', k = w.length + 1 + k' := ⟨k - w.length - 1, by omega⟩
    exact (word_right k').2 (hk k' (by omega) (by omega))
  · intro h q hq hk
    obtain ⟨q', rfl⟩ : ∃ k', q = w.length + 1 + k' := ⟨q - w.length - 1, by omega⟩
    rw [letter_right]
    exact h q' (by omega) fun k k1 k2 => (word_right k).1 (hk _ (by omega) (by omega))

theorem goes_left {e q : Nat} (he : e ≤ w.length) : GoesOnAt x (w ++ b :: v) e q ↔ GoesOnAt x w e q := by
  constructor
  · rintro ⟨h1, h2, h3⟩
    have hlt : q < w.length := by
      rcases word_bound hb he (k := q) (v := v) (fun j j1 j2 => by
        rcases Nat.lt_or_ge j q with h | h
        · exact (h3 j j1 h).1
        · rw [show j = q by omega]; exact letterAt_word h2.1) with h | h
      · exact h
      · omega
    exact ⟨h1, (low_left hlt).1 h2, fun k k1 k2 => by
      have := h3 k k1 k2
      rwa [word_left (by omega), letter_left (by omega)] at this⟩
  · rintro ⟨h1, h2, h3⟩
    have hlt := letterAt_lt h2.1
    exact ⟨h1, (low_left hlt).2 h2, fun k k1 k2 => by
      rw [word_left (by omega), letter_left (by omega)]
      exact h3 k k1 k2⟩

omit hb in
theorem goes_right {e q : Nat} : GoesOnAt x (w ++ b :: v) (w.length + 1 + e) q ↔ ∃ q', q = w.length + 1 + q' ∧ GoesOnAt x v e q' := by
  constructor
  · rintro ⟨h1, h2, h3⟩
    obtain ⟨q', rfl⟩ : ∃ k', q = w.length + 1 + k' := ⟨q - w.length - 1, by omega⟩
    exact ⟨q', rfl, by omega, (low_right q').1 h2, fun k k1 k2 => by
      have := h3 (w.length + 1 + k) (by omega) (by omega)
      rwa [word_right, letter_right] at this⟩
  · rintro ⟨q', rfl, h1, h2, h3⟩
    refine ⟨by omega, (low_right q').2 h2, fun k k1 k2 => ?_⟩
    obtain ⟨k', rfl⟩ : ∃ k', k = w.length + 1 + k' := ⟨k - w.length - 1, by omega⟩
    rw [word_right, letter_right]
    exact h3 k' (by omega) (by omega)

theorem signs_left (h0 : x.begcaps = none) {p e : Nat} (he : e ≤ w.length) {out : List (Nat × Resolved)} (h : RunCapSigns x w p e out) :
    RunCapSigns x (w ++ b :: v) p e out := by
  cases h with
  | letter h1 h2 => exact .letter h1 h2
  | word h1 h2 h3 => exact .word h1 h2 ((ends_left hb he).2 h3)
  | terminated h1 h2 h3 h4 => exact .terminated h1 h2 ((goes_left hb he).2 h3) h4
  | mode _ _ h => rw [h0] at h; cases h
  | letters h1 h2 h3 h4 h5 h6 =>
    refine .letters h1 ?_ h3 h4 h5 fun i => ?_
    · exact h2.imp_right fun ⟨a, q, h⟩ => ⟨a, q, (goes_left hb he).2 h⟩
    · rw [h6]
      constructor
      · rintro ⟨a, c, d⟩; exact ⟨a, c, by rw [upper_left (by omega)]; exact d⟩
      · rintro ⟨a, c, d⟩; exact ⟨a, c, by rw [upper_left (by omega)] at d; exact d⟩
  | nothing h1 h2 h3 => exact .nothing (h1.imp_right fun ⟨a, q, h⟩ => ⟨a, q, (goes_left hb he).2 h⟩) h2 h3

omit hb in
theorem signs_right (h0 : x.begcaps = none) {p e : Nat} {out : List (Nat × Resolved)} (h : RunCapSigns x v p e out) :
    RunCapSigns x (w ++ b :: v) (w.length + 1 + p) (w.length + 1 + e) (later (w.length + 1) out) := by
  cases h with
  | letter h1 h2 => exact .letter (by omega) h2
  | word h1 h2 h3 => exact .word (fun h => h1 (by omega)) h2 (ends_right.2 h3)
  | terminated h1 h2 h3 h4 => exact .terminated (fun h => h1 (by omega)) h2 (goes_right.2 ⟨_, rfl, h3⟩) h4
  | mode _ _ h => rw [h0] at h; cases h
  | @letters t ps h1 h2 h3 h4 h5 h6 =>
    have : later (w.length + 1) (ps.map fun i => (i, t)) = (ps.map (w.length + 1 + ·)).map fun i => (i, t) := by
      simp [later]
    rw [this]
    refine .letters (by omega) (h2.imp_right fun ⟨a, q, h⟩ => ⟨a, _, goes_right.2 ⟨q, rfl, h⟩⟩) h3 h4 ?_ fun i => ?_
    · rw [List.pairwise_map]
      exact h5.imp fun h => by omega
    · rw [List.mem_map]
      constructor
      · rintro ⟨a, ha, rfl⟩
        obtain ⟨a1, a2, a3⟩ := (h6 a).1 ha
        exact ⟨by omega, by omega, by rw [upper_right]; exact a3⟩
      · rintro ⟨a1, a2, a3⟩
        obtain ⟨k', rfl⟩ : ∃ k', i = w.length + 1 + k' := ⟨i - w.length - 1, by omega⟩
        rw [upper_right] at a3
        exact ⟨k', (h6 k').2 ⟨by omega, by omega, a3⟩, rfl⟩
  | nothing h1 h2 h3 => exact .nothing (h1.imp_right fun ⟨a, q, h⟩ => ⟨a, _, goes_right.2 ⟨q, rfl, h⟩⟩) h2 h3

omit hb in
/-- Positions of the signs of a run. -/
theorem signs_bound {text : Text} (h0 : x.begcaps = none) {p e : Nat} (hr : UpperRun x text p e) {out : List (Nat × Resolved)}
    (h : RunCapSigns x text p e out) : ∀ q ∈ out, q.1 < text.length := by
  have hp := letterAt_lt (upperAt_letterAt hr.first)
  cases h with
  | letter h1 h2 => simpa using hp
  | word h1 h2 h3 => simpa using hp
  | terminated h1 h2 h3 h4 =>
    have := letterAt_lt h3.2.1.1
    intro q hq
    rcases List.mem_cons.1 hq with rfl | hq
    · exact hp
    · rw [List.mem_singleton.1 hq]; exact this
  | mode _ _ h => rw [h0] at h; cases h
  | letters h1 h2 h3 h4 h5 h6 =>
    intro q hq
    obtain ⟨i, hi, rfl⟩ := List.mem_map.1 hq
    exact letterAt_lt (upperAt_letterAt ((h6 i).1 hi).2.2)
  | nothing => simp

omit hb in
theorem runsSigns_bound {text : Text} (h0 : x.begcaps = none) {runs : List (Nat × Nat)} {out : List (Nat × Resolved)}
    (hr : ∀ r ∈ runs, UpperRun x text r.1 r.2) (h : RunsCapSigns x text runs out) : ∀ q ∈ out, q.1 < text.length := by
  obtain ⟨parts, h, rfl⟩ := h
  induction h with
  | nil => simp
  | cons h1 h2 ih =>
    intro q hq
    rw [List.flatten_cons, List.mem_append] at hq
    rcases hq with hq | hq
    · exact signs_bound h0 (hr _ (by simp)) h1 q hq
    · exact ih (fun r hr' => hr r (by simp [hr'])) q hq

/-- **C75**, capitals. -/
theorem caps_split (h0 : x.begcaps = none) (h0' : x.begcapsphrase = none) {out o₁ o₂ : List (Nat × Resolved)}
    (h : ∀ ws, AreWords x (w ++ b :: v) ws → CapSigns x (w ++ b :: v) ws out) (h1 : ∀ ws, AreWords x w ws → CapSigns x w ws o₁)
    (h2 : ∀ ws, AreWords x v ws → CapSigns x v ws o₂) : out = o₁ ++ later (w.length + 1) o₂ ∧ ∀ q ∈ o₁, q.1 < w.length := by
  obtain ⟨runs, a, s⟩ := capSigns_all h0 h0' h
  obtain ⟨r₁, a1, s1⟩ := capSigns_all h0 h0' h1
  obtain ⟨r₂, a2, s2⟩ := capSigns_all h0 h0' h2
  have := a.unique (runs_split hb a1 a2)
  subst this
  refine ⟨s.unique (RunsCapSigns.append ?_ ?_), runsSigns_bound h0 (fun r hr => (a1.1 r).1 hr) s1⟩
  · obtain ⟨parts, hp, rfl⟩ := s1
    refine ⟨parts, ?_, rfl⟩
    have key : ∀ r ∈ r₁, r.2 ≤ w.length := by
      intro r hr
      have := (a1.1 r).1 hr
      have h3 := letterAt_lt (upperAt_letterAt this.last)
      omega
    clear a1 a s h1
    induction hp with
    | nil => exact .nil
    | cons h3 _ ih => exact .cons (signs_left hb h0 (key _ (by simp)) h3) (ih fun r hr => key r (by simp [hr]))
  · obtain ⟨parts, hp, rfl⟩ := s2
    refine ⟨parts.map (later (w.length + 1)), ?_, ?_⟩
    · clear a2 a s h2
      induction hp with
      | nil => exact .nil
      | cons h3 _ ih => exact .cons (signs_right h0 h3) ih
    · simp only [later, List.map_flatten]
      rfl

theorem caps_blank (h0 : x.begcaps = none) (h0' : x.begcapsphrase = none) {out : List (Nat × Resolved)}
    (h : ∀ ws, AreWords x [b] ws → CapSigns x [b] ws out) : out = [] := by
  obtain ⟨runs, a, s⟩ := capSigns_all h0 h0' h
  have : runs = [] := by
    rw [List.eq_nil_iff_forall_not_mem]
    intro r hr
    have hr := (a.1 r).1 hr
    have hp := letterAt_lt (upperAt_letterAt hr.first)
    have : r.1 = 0 := by simpa using hp
    have hw := (hr.inside r.1 (Nat.le_refl _) hr.nonempty).1
    rw [this] at hw
    exact word_blank (w := []) (v := []) hb hw
  subst this
  obtain ⟨parts, hp, rfl⟩ := s
  cases hp
  rfl

end

end Louis
