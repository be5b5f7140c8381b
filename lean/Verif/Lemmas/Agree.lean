import Verif.Props.Trie
import Verif.Lemmas.Primary

/-!
# Dictionaries that differ in entries that are not looked up

Two main stages whose dictionaries differ only in entries that cannot be reached on a text treat that text alike.
-/

namespace Louis

open Regexp (Fault)

theorem find_empty {lower : Char → List Char} (input : Text) (prev : Option Char) : Trie.empty.find lower input prev = [] := by
  unfold Trie.empty
  rw [Trie.find, findChecks]
  simp [findChar]

theorem findChar_updKid {lower : Char → List Char} {k : RTrans} {g : Trie → Trie} {input : Text}
    (hk : ∀ l c rest, k = .char l → input = c :: rest → lower c = [l] → ∀ t, (g t).find lower rest (some c) = t.find lower rest (some c)) :
    ∀ kids : List (RTrans × Trie), findChar lower (updKid k g kids) input = findChar lower kids input
  | [] => by
    cases input with
    | nil => simp [updKid, findChar]
    | cons c rest =>
      have hn : findChar lower [] (c :: rest) = [] := by simp [findChar]
      rw [updKid, hn, findChar, hn]
      split
      · next l hl =>
        split
        · next e => subst e; rw [hk l c rest rfl rfl hl, find_empty]
        · rfl
      · rfl
  | (k', t) :: kids => by
    have ih := findChar_updKid hk kids
    cases input with
    | nil =>
      rw [updKid]
      split <;> simp [findChar]
    | cons c rest =>
      rw [updKid]
      split
      · next e =>
        subst e
        rw [findChar, findChar]
        split
        · next l hl =>
          split
          · next e => subst e; rw [hk l c rest rfl rfl hl]
          · rfl
        · rfl
      · rw [findChar, findChar, ih]

theorem findChecks_updKid {lower : Char → List Char} {k : RTrans} {g : Trie → Trie} {input : Text} {prev : Option Char}
    (hs : ∀ r, k = .start r → r.matches prev = true → ∀ t, (g t).find lower input prev = t.find lower input prev)
    (he : ∀ r, k = .stop r → r.matches input.head? = true → ∀ t, (g t).find lower input prev = t.find lower input prev) :
    ∀ kids : List (RTrans × Trie), findChecks lower (updKid k g kids) input prev = findChecks lower kids input prev
  | [] => by
    rw [updKid]
    cases k with
    | char l => simp [findChecks]
    | start r =>
      simp only [findChecks, List.append_nil]
      split
      · next h => rw [hs r rfl h, find_empty]
      · rfl
    | stop r =>
      simp only [findChecks, List.append_nil]
      split
      · next h => rw [he r rfl h, find_empty]
      · rfl
  | (k', t) :: kids => by
    have ih := findChecks_updKid hs he kids
    rw [updKid]
    split
    · next e =>
      subst e
      cases k' with
      | char l => simp [findChecks]
      | start r =>
        simp only [findChecks]
        split
        · next h => rw [hs r rfl h]
        · rfl
      | stop r =>
        simp only [findChecks]
        split
        · next h => rw [he r rfl h]
        · rfl
    · cases k' <;> simp only [findChecks, ih]

/-- Changing an entry that does not apply does not change what is found. -/
theorem find_modify {lower : Char → List Char} {f : Option Resolved → Option Resolved} : ∀ (path : List RTrans) (t : Trie) (input : Text)
    (prev : Option Char), ¬PathMatches lower path input prev → (t.modify path f).find lower input prev = t.find lower input prev
  | [], _, _, _, h => absurd trivial h
  | k :: path, .node tr kids, input, prev, h => by
    rw [Trie.modify, Trie.find, Trie.find, findChar_updKid, findChecks_updKid]
    · rintro r rfl hm t
      exact find_modify path t input prev fun hp => h ⟨hm, hp⟩
    · rintro r rfl hm t
      exact find_modify path t input prev fun hp => h ⟨hm, hp⟩
    · rintro l c rest rfl rfl hl t
      exact find_modify path t rest (some c) fun hp => h ⟨hl, hp⟩

/-- The entries at some paths are replaced. -/
def Trie.replace (E : List RTrans → Option Resolved) : List (List RTrans) → Trie → Trie
  | [], t => t
  | p :: ps, t => Trie.replace E ps (t.modify p fun _ => E p)

theorem replace_map (E : List RTrans → Option Resolved) : ∀ (ps : List (List RTrans)) (t : Trie), t.Map → (t.replace E ps).Map
  | [], _, h => h
  | p :: ps, t, h => replace_map E ps _ (map_modify _ p t h)

theorem replace_at (E : List RTrans → Option Resolved) : ∀ (ps : List (List RTrans)) (t : Trie) (q : List RTrans),
    (t.replace E ps).at q = if q ∈ ps then E q else t.at q
  | [], t, q => by simp [Trie.replace]
  | p :: ps, t, q => by
    rw [Trie.replace, replace_at E ps, at_modify]
    by_cases h : q ∈ ps
    · simp [h]
    · by_cases e : q = p
      · subst e; simp
      · simp [h, e]

theorem replace_find {lower : Char → List Char} (E : List RTrans → Option Resolved) (input : Text) (prev : Option Char) :
    ∀ (ps : List (List RTrans)) (t : Trie), (∀ p ∈ ps, ¬PathMatches lower p input prev) →
    (t.replace E ps).find lower input prev = t.find lower input prev
  | [], _, _ => rfl
  | p :: ps, t, h => by
    rw [Trie.replace, replace_find E input prev ps _ fun q hq => h q (List.mem_cons_of_mem _ hq),
      find_modify p t input prev (h p (List.mem_cons_self ..))]

/-- A dictionary with other entries can be listed in such an order that the same is found in every text to which only common entries
apply. -/
theorem agree_variant {t t₀ : Trie} (hm : t.Map) (ps : List (List RTrans)) (hps : ∀ p, t₀.at p ≠ t.at p → p ∈ ps) :
    ∃ t', t₀.SameEntries t' ∧ ∀ lower input prev, (∀ p ∈ ps, t₀.at p ≠ t.at p → ¬PathMatches lower p input prev) →
      t'.find lower input prev = t.find lower input prev := by
  classical
  refine ⟨t.replace (fun p => t₀.at p) (ps.filter fun p => t₀.at p ≠ t.at p), ⟨replace_map _ _ _ hm, fun q => ?_⟩,
    fun lower input prev hno => ?_⟩
  · rw [replace_at]
    split
    · rfl
    · next h =>
      apply Classical.byContradiction
      intro hne
      exact h (List.mem_filter.2 ⟨hps q (Ne.symm hne), by simpa using Ne.symm hne⟩)
  · apply replace_find
    intro p hp
    rw [List.mem_filter] at hp
    exact hno p hp.1 (by simpa using hp.2)

/-! ## The main stage -/

/-- The dictionaries are left out. -/
def PrimaryTable.core (t : PrimaryTable) : PrimaryTable := { t with trie := Trie.empty, comp6 := Trie.empty, nocross := Trie.empty }

/-- The two main stages find the same in this text. -/
structure Agree (lower : Char → List Char) (input : Text) (t t' : PrimaryTable) : Prop where
  core : t.core = t'.core
  trie : ∀ k prev, t.trie.find lower (input.drop k) prev = t'.trie.find lower (input.drop k) prev
  comp6 : ∀ k prev, t.comp6.find lower (input.drop k) prev = t'.comp6.find lower (input.drop k) prev
  nocross : ∀ k prev, t.nocross.find lower (input.drop k) prev = t'.nocross.find lower (input.drop k) prev

theorem pStep_agree {t t' : PrimaryTable} {cs : Case} {cons : Constraints} {ind : Nat → List Resolved} {input : Text} {s : PState}
    (h : Agree cs.lower input t t') {k : Nat} (hs : s.rest = input.drop k) :
    pStep t cs cons ind input s = pStep t' cs cons ind input s := by
  obtain ⟨a1, a2, a3, a4, a5, a6, a7, a8, a9, a10⟩ := t
  obtain ⟨b1, b2, b3, b4, b5, b6, b7, b8, b9, b10⟩ := t'
  obtain ⟨hc, h1, h2, h3⟩ := h
  simp only [PrimaryTable.core, PrimaryTable.mk.injEq, true_and] at hc
  obtain ⟨rfl, rfl, rfl, rfl, rfl, rfl, rfl⟩ := hc
  simp only at h1 h2 h3
  unfold pStep nocrossCandidate gather selectCandidates preferDigit capitalise plainTranslation handleUndefined
  simp only [hs, h1, h2, h3]

theorem pStep_rest {t : PrimaryTable} {cs : Case} {cons : Constraints} {ind : Nat → List Resolved} {input : Text} {s s' : PState}
    (h : pStep t cs cons ind input s = .ok (.inl s')) : ∃ k, s'.rest = s.rest.drop k := by
  unfold pStep at h
  simp only at h
  split at h
  · cases h
  · split at h
    · split at h
      · cases h
      · injection h with h; injection h with h; subst h; exact ⟨_, rfl⟩
    · split at h
      · split at h
        · cases h
        · injection h with h; injection h with h; subst h
          simp only
          split
          · exact ⟨0, rfl⟩
          · exact ⟨_, rfl⟩
      · split at h
        · cases h
        · next c rest e =>
          split at h
          · cases h
          · injection h with h; injection h with h; subst h; exact ⟨1, by rw [e]; rfl⟩

theorem pLoop_agree {t t' : PrimaryTable} {cs : Case} {cons : Constraints} {ind : Nat → List Resolved} {input : Text}
    (h : Agree cs.lower input t t') : ∀ (fuel : Nat) (s : PState) (k : Nat), s.rest = input.drop k →
    pLoop t cs cons ind input fuel s = pLoop t' cs cons ind input fuel s
  | 0, _, _, _ => rfl
  | fuel + 1, s, k, hs => by
    rw [pLoop, pLoop, ← pStep_agree h hs]
    cases e : pStep t cs cons ind input s with
    | error x => rfl
    | ok x =>
      cases x with
      | inr out => rfl
      | inl s' =>
        obtain ⟨j, hj⟩ := pStep_rest e
        exact pLoop_agree h fuel s' (k + j) (by rw [hj, hs, List.drop_drop])

theorem traces_agree {t t' : PrimaryTable} {cs : Case} {cons : Constraints} {ind : Nat → List Resolved} {input : Text}
    {ts : List Resolved} (h : Agree cs.lower input t t') : t.Traces cs cons ind input ts ↔ t'.Traces cs cons ind input ts := by
  unfold PrimaryTable.Traces
  simp only [pLoop_agree h _ _ 0 (rfl : (PState.init input).rest = input.drop 0)]

end Louis
