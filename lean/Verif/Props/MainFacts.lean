import Verif.Props.Determinism

/-!
# What follows from the exact description of the main stage (C73)

Each fact is stated for a run of the stage; by `C73_table` the items of every trace are those of a run.
-/

namespace Louis

variable {T : MainTable} {L : Listing} {lower : Char → List Char} {flags : Constraints} {input : Text} {made : List Made}

theorem lastHeaviest_mem {l : List Resolved} {o : Resolved} (h : lastHeaviest l = some o) : o ∈ l := by
  rw [lastHeaviest_eq] at h; exact heaviest_mem h

theorem lastHeaviest_max {l : List Resolved} {o : Resolved} (h : lastHeaviest l = some o) : ∀ x ∈ l, x.weight ≤ o.weight := by
  rw [lastHeaviest_eq] at h; exact heaviest_max h

theorem lastHeaviest_none {l : List Resolved} (h : lastHeaviest l = none) : l = [] := by
  rw [lastHeaviest_eq, heaviest_none] at h; exact h

theorem best_mem {o : Resolved} (h : T.best L lower flags input made = some o) :
    o ∈ T.choices L lower flags input made ∧ o.subset ∉ spentOn made := by
  have := lastHeaviest_mem h
  simp only [List.mem_filter, Bool.not_eq_true', List.contains_eq_mem, decide_eq_false_iff_not] at this
  exact this

theorem unbroken_mem {o : Resolved} (h : T.bestUnbroken L flags input made = some o) :
    o ∈ L.unbroken (input.drop (placeOf made)) (dealtWith (itemsOf made)).getLast? ∧
    ∀ i < o.length - 1, flags.hyphenationBreak (placeOf made + i) = false := by
  have := lastHeaviest_mem h
  simp only [List.mem_filter, Bool.not_eq_true', List.any_eq_false, List.mem_range] at this
  exact ⟨this.1, fun i hi => by simpa using this.2 i hi⟩

/-- The three ways an item comes about. -/
theorem next_ways {m : Made} (h : T.next L lower flags input made = some m) :
    (m.way = .line → m.item ∈ T.choices L lower flags input made ∧ m.item.subset ∉ spentOn made) ∧
    (m.way = .unbroken → m.item ∈ L.unbroken (input.drop (placeOf made)) (dealtWith (itemsOf made)).getLast? ∧
      ∀ i < m.item.length - 1, flags.hyphenationBreak (placeOf made + i) = false) ∧
    (m.way = .spelled → ∃ c, (input.drop (placeOf made)).head? = some c ∧ m.item = T.spelled c) := by
  unfold MainTable.next at h
  split at h
  · next u o h1 h2 =>
    simp only [Option.some.injEq] at h
    split at h <;> subst h
    · exact ⟨fun e => (nomatch e), fun _ => unbroken_mem h1, fun e => (nomatch e)⟩
    · exact ⟨fun _ => best_mem h2, fun e => (nomatch e), fun e => (nomatch e)⟩
  · next u h1 h2 => cases h; exact ⟨fun e => (nomatch e), fun _ => unbroken_mem h1, fun e => (nomatch e)⟩
  · next o h1 h2 => cases h; exact ⟨fun _ => best_mem h2, fun e => (nomatch e), fun e => (nomatch e)⟩
  · simp only [Option.map_eq_some_iff] at h
    obtain ⟨c, hc, rfl⟩ := h
    exact ⟨fun e => (nomatch e), fun e => (nomatch e), fun _ => ⟨c, hc, rfl⟩⟩

theorem next_heaviest {m : Made} (h : T.next L lower flags input made = some m) {o : Resolved}
    (ho : o ∈ T.choices L lower flags input made) (hs : o.subset ∉ spentOn made) :
    m.way ≠ .spelled ∧ o.weight ≤ m.item.weight := by
  have hin : o ∈ (T.choices L lower flags input made).filter fun o => !(spentOn made).contains o.subset := by
    simp only [List.mem_filter, Bool.not_eq_true', List.contains_eq_mem, decide_eq_false_iff_not]
    exact ⟨ho, hs⟩
  unfold MainTable.next at h
  split at h
  · next u o' h1 h2 =>
    have := lastHeaviest_max h2 o hin
    simp only [Option.some.injEq] at h
    split at h <;> subst h
    · exact ⟨fun e => (nomatch e), by simp only; omega⟩
    · exact ⟨fun e => (nomatch e), this⟩
  · next u h1 h2 => rw [lastHeaviest_none h2] at hin; cases hin
  · next o' h1 h2 =>
    cases h
    exact ⟨fun e => (nomatch e), lastHeaviest_max h2 o hin⟩
  · next h1 h2 => rw [lastHeaviest_none h2] at hin; cases hin

/-- What may be chosen, outside computer braille. -/
theorem mem_choices {o : Resolved} (h6 : flags.useComp6 (placeOf made) = false)
    (ho : o ∈ L.entries (input.drop (placeOf made)) (dealtWith (itemsOf made)).getLast? ∨
      o ∈ T.offers lower input (itemsOf made) ∧ o.offset = 0 ∨ o ∈ fromEarlier (T.offers lower input) (itemsOf made))
    (ha : allowedHere flags (placeOf made) o = true)
    (hd : T.dir = .backward → flags.preferDigit (placeOf made) = true → o.length ≠ 1)
    (hc : flags.dontContract (placeOf made) = true → o.length ≤ 1) : o ∈ T.choices L lower flags input made := by
  unfold MainTable.choices
  simp only [h6, Bool.false_eq_true, if_false]
  have hin : o ∈ (L.entries (input.drop (placeOf made)) (dealtWith (itemsOf made)).getLast? ++
      (T.offers lower input (itemsOf made)).filter (·.offset == 0) ++ fromEarlier (T.offers lower input) (itemsOf made)).filter
      (allowedHere flags (placeOf made)) := by
    simp only [List.mem_filter, List.mem_append, beq_iff_eq]
    exact ⟨by grind, ha⟩
  rw [List.mem_filter]
  refine ⟨?_, ?_⟩
  · unfold MainTable.digitsFirst
    split
    · next hb =>
      split
      · rw [List.mem_append, List.mem_filter]
        refine .inl ⟨hin, ?_⟩
        have := hd hb.1 hb.2
        simpa using this
      · exact hin
    · exact hin
  · cases e : flags.dontContract (placeOf made) with
    | false => rfl
    | true => simpa using hc e

/-! ## C69: `match` and `context` lines are not passed over -/

/-- **C69.** What a `match` or `context` line offers for a place, read from there or from an earlier place the stage went
through, is used there, or something that is at least as heavy; unless the place is in computer braille, or it is a contraction
in a number, or (backward) it is a single cell where a digit is expected, or it inserts what has been inserted already. -/
theorem C69_pattern_lines (hr : T.Run L lower flags input made) (i : Nat) (hi : i < made.length) (j : Nat) (hj : j ≤ i)
    (o : Resolved) (ho : o ∈ T.offers lower input (itemsOf (made.take j)))
    (hplace : placeOf (made.take j) + o.offset = placeOf (made.take i))
    (hearly : j < i → o.offset ≠ 0 ∧ arrived (itemsOf (made.take i)) = true)
    (h6 : flags.useComp6 (placeOf (made.take i)) = false)
    (ha : allowedHere flags (placeOf (made.take i)) o = true)
    (hd : T.dir = .backward → flags.preferDigit (placeOf (made.take i)) = true → o.length ≠ 1)
    (hc : flags.dontContract (placeOf (made.take i)) = true → o.length ≤ 1)
    (hs : o.subset ∉ spentOn (made.take i)) :
    made[i].way ≠ .spelled ∧ o.weight ≤ made[i].item.weight := by
  have hn := hr.each i hi
  rcases Nat.lt_or_eq_of_le hj with hlt | rfl
  · obtain ⟨h0, harr⟩ := hearly hlt
    refine next_heaviest (o := { o with offset := 0 }) hn (mem_choices h6 (.inr (.inr ?_)) ha hd hc) hs
    rw [mem_fromEarlier]
    refine ⟨harr, j, ?_, o, ?_, h0, ?_, rfl⟩
    · simp [itemsOf]; omega
    · unfold itemsOf at ho ⊢
      rw [← List.map_take, List.take_take, Nat.min_eq_left hj]
      exact ho
    · unfold placeOf itemsOf at hplace
      unfold itemsOf
      rw [← List.map_take, List.take_take, Nat.min_eq_left hj]
      exact hplace
  · exact next_heaviest hn (mem_choices h6 (.inr (.inl ⟨ho, by omega⟩)) ha hd hc) hs

/-! ## C23, C51, C62: only `nocross` lines escape the gates -/

/-- **C62.** For every table: an item that is not made by a `nocross` line (`Way.unbroken`) obeys the gates.  In computer braille it is
made by a `comp6` line or is a single character; elsewhere a contraction is not used in a number, a `prepunc` or `postpunc`
line only where the punctuation stands before or after a word.  And a `nocross` line is used only if no hyphen may stand within its text. -/
theorem C62_gates_of_ways (hL : T.Lists lower L) (hr : T.Run L lower flags input made) (i : Nat) (hi : i < made.length) :
    (made[i].way = .line → flags.useComp6 (placeOf (made.take i)) = true →
      T.Offers lower T.computer (input.drop (placeOf (made.take i))) (dealtWith (itemsOf (made.take i))).getLast? made[i].item) ∧
    (made[i].way = .line → flags.useComp6 (placeOf (made.take i)) = false →
      (flags.dontContract (placeOf (made.take i)) = true → made[i].item.length ≤ 1) ∧
      ((∃ q ∈ T.digits, T.dir = .backward ∧ made[i].item = q.2) ∨ allowedHere flags (placeOf (made.take i)) made[i].item = true)) ∧
    (made[i].way = .unbroken →
      T.Offers lower T.unbroken (input.drop (placeOf (made.take i))) (dealtWith (itemsOf (made.take i))).getLast? made[i].item ∧
      ∀ k < made[i].item.length - 1, flags.hyphenationBreak (placeOf (made.take i) + k) = false) ∧
    (made[i].way = .spelled → ∃ c, (input.drop (placeOf (made.take i))).head? = some c ∧ made[i].item = T.spelled c) := by
  obtain ⟨h1, h2, h3⟩ := next_ways (hr.each i hi)
  refine ⟨fun hw h6 => ?_, fun hw h6 => ?_, fun hw => ?_, h3⟩
  · have := (h1 hw).1
    unfold MainTable.choices at this
    simp only [h6, if_true] at this
    exact (hL.computer _ _ _).1 this
  · have := (h1 hw).1
    unfold MainTable.choices at this
    simp only [h6, Bool.false_eq_true, if_false, List.mem_filter] at this
    obtain ⟨hm, hcond⟩ := this
    refine ⟨fun hd => by simpa [hd] using hcond, ?_⟩
    unfold MainTable.digitsFirst at hm
    split at hm
    · next hb =>
      split at hm
      · next digit hdig =>
        rw [List.mem_append, List.mem_filter, List.mem_filter, List.mem_singleton] at hm
        rcases hm with hm | hm
        · exact .inr hm.1.2
        · refine .inl ?_
          simp only [Option.bind_eq_some_iff, Option.map_eq_some_iff] at hdig
          obtain ⟨c, -, q, hq, rfl⟩ := hdig
          exact ⟨q, List.mem_of_find?_eq_some hq, hb.1, hm⟩
      · exact .inr (List.mem_filter.1 hm).2
    · exact .inr (List.mem_filter.1 hm).2
  · obtain ⟨a, b⟩ := h2 hw
    exact ⟨(hL.unbroken _ _ _).1 a, b⟩

end Louis
