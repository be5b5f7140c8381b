import Verif.Lemmas.Trie
import Verif.Props.Trie

/-!
# The order in which a dictionary lists what it finds

What is found before two texts is the same list, not only the same set, if the same entries apply there.
-/

namespace Louis

mutual
/-- All entries of a dictionary, in the order in which they are looked at. -/
def Trie.listed : Trie → List (List RTrans × Resolved)
  | .node tr kids => tr.toList.map (fun o => ([], o)) ++ charListed kids ++ checkListed kids
def charListed : List (RTrans × Trie) → List (List RTrans × Resolved)
  | [] => []
  | (.char c, t) :: kids => t.listed.map (fun p => (.char c :: p.1, p.2)) ++ charListed kids
  | (.start _, _) :: kids => charListed kids
  | (.stop _, _) :: kids => charListed kids
def checkListed : List (RTrans × Trie) → List (List RTrans × Resolved)
  | [] => []
  | (.char _, _) :: kids => checkListed kids
  | (.start r, t) :: kids => t.listed.map (fun p => (.start r :: p.1, p.2)) ++ checkListed kids
  | (.stop r, t) :: kids => t.listed.map (fun p => (.stop r :: p.1, p.2)) ++ checkListed kids
end

/-- The transitions of a path can be followed on this text. -/
def follows (lower : Char → List Char) : List RTrans → Text → Option Char → Bool
  | [], _, _ => true
  | .char l :: p, c :: rest, _ => lower c == [l] && follows lower p rest (some c)
  | .char _ :: _, [], _ => false
  | .start r :: p, input, prev => r.matches prev && follows lower p input prev
  | .stop r :: p, input, prev => r.matches input.head? && follows lower p input prev

theorem follows_iff {lower : Char → List Char} : ∀ (path : List RTrans) (input : Text) (prev : Option Char),
    follows lower path input prev = true ↔ PathMatches lower path input prev
  | [], _, _ => by simp [follows, PathMatches]
  | .char l :: p, c :: rest, _ => by simp [follows, PathMatches, follows_iff p]
  | .char _ :: _, [], _ => by simp [follows, PathMatches]
  | .start r :: p, input, prev => by simp [follows, PathMatches, follows_iff p]
  | .stop r :: p, input, prev => by simp [follows, PathMatches, follows_iff p]

theorem filter_follow {F : List RTrans × Resolved → Bool} {k : RTrans} (l : List (List RTrans × Resolved)) :
    ((l.map (fun p => (k :: p.1, p.2))).filter F).map (·.2) = (l.filter fun p => F (k :: p.1, p.2)).map (·.2) := by
  induction l with
  | nil => rfl
  | cons a l ih =>
    simp only [List.map_cons, List.filter_cons]
    split <;> simp [ih]

theorem charListed_char : ∀ {kids : List (RTrans × Trie)} {q : List RTrans × Resolved}, q ∈ charListed kids →
    ∃ c p, q.1 = .char c :: p ∧ (RTrans.char c) ∈ kids.map (·.1)
  | [], _, h => by cases h
  | (.char c, t) :: kids, q, h => by
    rw [charListed, List.mem_append] at h
    rcases h with h | h
    · obtain ⟨x, -, rfl⟩ := List.mem_map.1 h
      exact ⟨c, x.1, rfl, by simp⟩
    · obtain ⟨c, p, e, hm⟩ := charListed_char h
      exact ⟨c, p, e, by simp [hm]⟩
  | (.start r, t) :: kids, q, h => by
    rw [charListed] at h
    obtain ⟨c, p, e, hm⟩ := charListed_char h
    exact ⟨c, p, e, by simp [hm]⟩
  | (.stop r, t) :: kids, q, h => by
    rw [charListed] at h
    obtain ⟨c, p, e, hm⟩ := charListed_char h
    exact ⟨c, p, e, by simp [hm]⟩

mutual
theorem find_listed {lower : Char → List Char} : ∀ (t : Trie) (input : Text) (prev : Option Char), t.Map →
    t.find lower input prev = (t.listed.filter fun q => follows lower q.1 input prev).map (·.2)
  | .node x kids, input, prev, hm => by
    simp only [Trie.Map] at hm
    rw [Trie.find, Trie.listed, List.filter_append, List.filter_append, List.map_append, List.map_append,
      findChar_listed kids input prev hm.1 hm.2, findChecks_listed kids input prev hm.2]
    congr 2
    cases x
    · rfl
    · simp [List.filter_cons, follows]
theorem findChar_listed {lower : Char → List Char} : ∀ (kids : List (RTrans × Trie)) (input : Text) (prev : Option Char),
    (kids.map (·.1)).Nodup → KidsMap kids →
    findChar lower kids input = ((charListed kids).filter fun q => follows lower q.1 input prev).map (·.2)
  | [], input, _, _, _ => by simp [findChar, charListed]
  | a :: kids, [], prev, _, _ => by
    rw [findChar, eq_comm, List.map_eq_nil_iff, List.filter_eq_nil_iff]
    intro q hq
    obtain ⟨c, p, e, -⟩ := charListed_char hq
    rw [e]
    simp [follows]
  | (.char k, t) :: kids, c :: rest, prev, hn, hm => by
    simp only [KidsMap] at hm
    simp only [List.map_cons, List.nodup_cons] at hn
    rw [findChar, charListed, List.filter_append, List.map_append, filter_follow]
    have ih := findChar_listed (lower := lower) kids (c :: rest) prev hn.2 hm.2
    have none (h : ∀ l, lower c = [l] → l ≠ k) :
        (t.listed.filter fun p => follows lower (.char k :: p.1) (c :: rest) prev) = [] := by
      rw [List.filter_eq_nil_iff]
      intro q _ hq
      simp only [follows, Bool.and_eq_true, beq_iff_eq] at hq
      exact h _ hq.1 rfl
    split
    · next l hl =>
      split
      · next e =>
        cases e
        rw [find_listed t rest (some c) hm.1]
        have : (charListed kids).filter (fun q => follows lower q.1 (c :: rest) prev) = [] := by
          rw [List.filter_eq_nil_iff]
          intro q hq hf
          obtain ⟨c', p, e, hmem⟩ := charListed_char hq
          rw [e] at hf
          simp only [follows, Bool.and_eq_true, beq_iff_eq] at hf
          rw [hl] at hf
          cases hf.1
          exact hn.1 hmem
        rw [this, List.map_nil, List.append_nil]
        congr 1
        apply List.filter_congr
        intro q _
        simp [follows, hl]
      · next ne =>
        rw [none, ih]
        · rfl
        · intro l' hl' e
          rw [hl] at hl'
          cases hl'
          exact ne (by rw [e])
    · next hl =>
      rw [none fun l hl' => absurd hl' (hl l), List.map_nil, List.nil_append, eq_comm, List.map_eq_nil_iff,
        List.filter_eq_nil_iff]
      intro q hq hf
      obtain ⟨c', p, e, -⟩ := charListed_char hq
      rw [e] at hf
      simp only [follows, Bool.and_eq_true, beq_iff_eq] at hf
      exact hl _ hf.1
  | (.start r, t) :: kids, c :: rest, prev, hn, hm => by
    simp only [KidsMap] at hm
    simp only [List.map_cons, List.nodup_cons] at hn
    rw [findChar, charListed, ← findChar_listed (lower := lower) kids (c :: rest) prev hn.2 hm.2]
    split
    · next l hl => rw [if_neg (by simp)]
    · next hl =>
      cases kids with
      | nil => rfl
      | cons a kids =>
        obtain ⟨k', t'⟩ := a
        rw [findChar]
        split
        · next l hl' => exact absurd hl' (hl l)
        · rfl
  | (.stop r, t) :: kids, c :: rest, prev, hn, hm => by
    simp only [KidsMap] at hm
    simp only [List.map_cons, List.nodup_cons] at hn
    rw [findChar, charListed, ← findChar_listed (lower := lower) kids (c :: rest) prev hn.2 hm.2]
    split
    · next l hl => rw [if_neg (by simp)]
    · next hl =>
      cases kids with
      | nil => rfl
      | cons a kids =>
        obtain ⟨k', t'⟩ := a
        rw [findChar]
        split
        · next l hl' => exact absurd hl' (hl l)
        · rfl
theorem findChecks_listed {lower : Char → List Char} : ∀ (kids : List (RTrans × Trie)) (input : Text) (prev : Option Char),
    KidsMap kids →
    findChecks lower kids input prev = ((checkListed kids).filter fun q => follows lower q.1 input prev).map (·.2)
  | [], input, _, _ => by simp [findChecks, checkListed]
  | (.char k, t) :: kids, input, prev, hm => by
    simp only [KidsMap] at hm
    rw [findChecks, checkListed, findChecks_listed kids input prev hm.2]
  | (.start r, t) :: kids, input, prev, hm => by
    simp only [KidsMap] at hm
    rw [findChecks, checkListed, findChecks_listed kids input prev hm.2, List.filter_append, List.map_append, filter_follow]
    congr 1
    simp only [follows]
    split
    · next h => rw [find_listed t input prev hm.1]; simp [h]
    · next h => simp [h]
  | (.stop r, t) :: kids, input, prev, hm => by
    simp only [KidsMap] at hm
    rw [findChecks, checkListed, findChecks_listed kids input prev hm.2, List.filter_append, List.map_append, filter_follow]
    congr 1
    simp only [follows]
    split
    · next h => rw [find_listed t input prev hm.1]; simp [h]
    · next h => simp [h]
end

mutual
theorem listed_at : ∀ (t : Trie), t.Map → ∀ q ∈ t.listed, t.at q.1 = some q.2
  | .node x kids, hm, q, hq => by
    simp only [Trie.Map] at hm
    simp only [Trie.listed, List.mem_append] at hq
    rcases hq with (hq | hq) | hq
    · cases x with
      | none => cases hq
      | some o => simp only [Option.toList, List.map_cons, List.map_nil, List.mem_singleton] at hq; subst hq; rfl
    · obtain ⟨k, p, e, h⟩ := charListed_at kids hm.1 hm.2 q hq
      rw [e, Trie.at, h]
    · obtain ⟨k, p, e, h⟩ := checkListed_at kids hm.1 hm.2 q hq
      rw [e, Trie.at, h]
theorem charListed_at : ∀ (kids : List (RTrans × Trie)), (kids.map (·.1)).Nodup → KidsMap kids → ∀ q ∈ charListed kids,
    ∃ k p, q.1 = k :: p ∧ (kid k kids).bind (Trie.at p) = some q.2
  | [], _, _, q, hq => by cases hq
  | (.char c, t) :: kids, hn, hm, q, hq => by
    simp only [KidsMap] at hm
    simp only [List.map_cons, List.nodup_cons] at hn
    rw [charListed, List.mem_append] at hq
    rcases hq with hq | hq
    · obtain ⟨x, hx, rfl⟩ := List.mem_map.1 hq
      exact ⟨.char c, x.1, rfl, by rw [kid, if_pos rfl]; exact listed_at t hm.1 x hx⟩
    · obtain ⟨k, p, e, h⟩ := charListed_at kids hn.2 hm.2 q hq
      refine ⟨k, p, e, ?_⟩
      rw [kid, if_neg, h]
      rintro rfl
      rw [kid_none hn.1] at h
      cases h
  | (.start c, t) :: kids, hn, hm, q, hq => by
    simp only [KidsMap] at hm
    simp only [List.map_cons, List.nodup_cons] at hn
    rw [charListed] at hq
    obtain ⟨k, p, e, h⟩ := charListed_at kids hn.2 hm.2 q hq
    refine ⟨k, p, e, ?_⟩
    rw [kid, if_neg, h]
    rintro rfl
    rw [kid_none hn.1] at h
    cases h
  | (.stop c, t) :: kids, hn, hm, q, hq => by
    simp only [KidsMap] at hm
    simp only [List.map_cons, List.nodup_cons] at hn
    rw [charListed] at hq
    obtain ⟨k, p, e, h⟩ := charListed_at kids hn.2 hm.2 q hq
    refine ⟨k, p, e, ?_⟩
    rw [kid, if_neg, h]
    rintro rfl
    rw [kid_none hn.1] at h
    cases h
theorem checkListed_at : ∀ (kids : List (RTrans × Trie)), (kids.map (·.1)).Nodup → KidsMap kids → ∀ q ∈ checkListed kids,
    ∃ k p, q.1 = k :: p ∧ (kid k kids).bind (Trie.at p) = some q.2
  | [], _, _, q, hq => by cases hq
  | (.char c, t) :: kids, hn, hm, q, hq => by
    simp only [KidsMap] at hm
    simp only [List.map_cons, List.nodup_cons] at hn
    rw [checkListed] at hq
    obtain ⟨k, p, e, h⟩ := checkListed_at kids hn.2 hm.2 q hq
    refine ⟨k, p, e, ?_⟩
    rw [kid, if_neg, h]
    rintro rfl
    rw [kid_none hn.1] at h
    cases h
  | (.start c, t) :: kids, hn, hm, q, hq => by
    simp only [KidsMap] at hm
    simp only [List.map_cons, List.nodup_cons] at hn
    rw [checkListed, List.mem_append] at hq
    rcases hq with hq | hq
    · obtain ⟨x, hx, rfl⟩ := List.mem_map.1 hq
      exact ⟨.start c, x.1, rfl, by rw [kid, if_pos rfl]; exact listed_at t hm.1 x hx⟩
    · obtain ⟨k, p, e, h⟩ := checkListed_at kids hn.2 hm.2 q hq
      refine ⟨k, p, e, ?_⟩
      rw [kid, if_neg, h]
      rintro rfl
      rw [kid_none hn.1] at h
      cases h
  | (.stop c, t) :: kids, hn, hm, q, hq => by
    simp only [KidsMap] at hm
    simp only [List.map_cons, List.nodup_cons] at hn
    rw [checkListed, List.mem_append] at hq
    rcases hq with hq | hq
    · obtain ⟨x, hx, rfl⟩ := List.mem_map.1 hq
      exact ⟨.stop c, x.1, rfl, by rw [kid, if_pos rfl]; exact listed_at t hm.1 x hx⟩
    · obtain ⟨k, p, e, h⟩ := checkListed_at kids hn.2 hm.2 q hq
      refine ⟨k, p, e, ?_⟩
      rw [kid, if_neg, h]
      rintro rfl
      rw [kid_none hn.1] at h
      cases h
end

/-- Where the same entries apply, the same list is found. -/
theorem find_same {lower : Char → List Char} {t : Trie} (hm : t.Map) {i i' : Text} {p p' : Option Char}
    (h : ∀ path o, t.at path = some o → (PathMatches lower path i p ↔ PathMatches lower path i' p')) :
    t.find lower i p = t.find lower i' p' := by
  rw [find_listed t i p hm, find_listed t i' p' hm]
  congr 1
  apply List.filter_congr
  intro q hq
  rw [Bool.eq_iff_iff, follows_iff, follows_iff]
  exact h _ _ (listed_at t hm q hq)

/-- The same for a dictionary made from lines: where the same lines apply, the same list is found. -/
theorem Dictionary.find_same {ctx : CharClasses} {lower : Char → List Char} {d : Direction} {rules : List TrieRule} {t : Trie}
    (h : Dictionary ctx d rules t) {i i' : Text} {p p' : Option Char}
    (hr : ∀ r ∈ rules, RuleMatches ctx lower d r i p ↔ RuleMatches ctx lower d r i' p') :
    t.find lower i p = t.find lower i' p' := by
  have hmap : t.Map := by obtain ⟨t, -, h2⟩ := h; exact h2.1
  refine Louis.find_same hmap fun path o ho => ?_
  rw [h.at] at ho
  rcases store_foldl_from ho with h0 | ⟨r, hr', hf⟩
  · cases h0
  · obtain ⟨hr', e⟩ := List.mem_filter.1 hr'
    rw [← of_decide_eq_true e, path_iff, path_iff]
    exact hr r hr'

end Louis
