import Verif.Props.Trie
import Verif.Model.Indicators

/-!
# C28: letter signs (and no-contraction signs)
-/

namespace Louis

/-! ## Specification -/

/-- The word `w` is spelled at position `i` of the text, with a space, a punctuation mark or the border of the text on either
side. -/
def WordHere (ctx : CharClasses) (lower : Char → List Char) (w : Text) (text : Text) (i : Nat) : Prop :=
  ∃ consumed rest, text.drop i = consumed ++ rest ∧ Spells lower consumed w ∧
    NeighbourIn ctx [.space, .punctuation] (prevAt text i) ∧ NeighbourIn ctx [.space, .punctuation] rest.head?

/-- Position `i` holds an isolated letter: no letter follows, neither a letter nor a space precedes, the character before is
not one after which letter signs are forbidden (`noletsignafter`) and the character behind not one before which they are
(`noletsignbefore`). -/
def IsolatedLetter (l : LetIndicator) (text : Text) (i : Nat) : Prop :=
  (∃ c, text[i]? = some c ∧ c ∈ l.letters) ∧
  (∀ p, prevAt text i = some p → p ∉ l.letters ∧ p ∉ l.spaces ∧ p ∉ l.after) ∧
  (∀ n, text[i + 1]? = some n → n ∉ l.letters ∧ n ∉ l.before)

/-! ## Proofs -/

theorem contractionAt_iff {ctx : CharClasses} {lower : Char → List Char} {cs : List Text} {dots : Text} {origin : Origin} {t : Trie}
    (h : Dictionary ctx .forward (cs.map (contractionRule dots origin)) t) (text : Text) (i : Nat) :
    contractionAt t lower (text.drop i) (prevAt text i) = true ↔ ∃ w ∈ cs, WordHere ctx lower w text i := by
  have hrule : ∀ w, RuleMatches ctx lower .forward (contractionRule dots origin w) (text.drop i) (prevAt text i) ↔
      WordHere ctx lower w text i := by
    intro w
    unfold RuleMatches WordHere
    simp [contractionRule, TrieRule.from]
  unfold contractionAt
  simp only [Bool.not_eq_true', List.isEmpty_eq_false_iff_exists_mem]
  constructor
  · rintro ⟨tr, htr⟩
    obtain ⟨r, hr, hm, -⟩ := C13_found_rule_applies ctx lower .forward _ t h _ _ tr htr
    obtain ⟨w, hw, rfl⟩ := List.mem_map.1 hr
    exact ⟨w, hw, (hrule w).1 hm⟩
  · rintro ⟨w, hw, hm⟩
    obtain ⟨tr, htr, -⟩ := C13_applying_rule_found ctx lower .forward _ t h _ _ _ (List.mem_map_of_mem hw) ((hrule w).2 hm)
    exact ⟨tr, htr⟩

theorem isolated_iff {l : LetIndicator} {text : Text} {i : Nat} :
    l.isolated text i = true ↔ IsolatedLetter l text i ∧ ∀ c, text[i]? = some c → c ∉ l.noletsign := by
  unfold LetIndicator.isolated IsolatedLetter
  cases hc : text[i]? with
  | none => simp
  | some c =>
    cases hp : prevAt text i <;> cases hn : text[i + 1]? <;> simp <;> grind

/-- **C28**: with the contractions `cs`, letter signs are placed exactly at the isolated letters and at the contractions that
stand as whole words, and never at a character listed in `noletsign`. -/
theorem C28_letter_signs (ctx : CharClasses) (lower : Char → List Char) (cs : List Text) (dots : Text) (origin : Origin)
    (l : LetIndicator) (h : Dictionary ctx .forward (cs.map (contractionRule dots origin)) l.contractions) (text : Text)
    (i : Nat) (t : Resolved) :
    (i, t) ∈ l.precompute lower text ↔
      t = l.start ∧ (∃ c, text[i]? = some c ∧ c ∉ l.noletsign) ∧
        (IsolatedLetter l text i ∨ ∃ w ∈ cs, WordHere ctx lower w text i) := by
  have hcon : l.contracted lower text i = true ↔ (∃ c, text[i]? = some c ∧ c ∉ l.noletsign) ∧ ∃ w ∈ cs, WordHere ctx lower w text i := by
    rw [← contractionAt_iff h]
    unfold LetIndicator.contracted
    cases hc : text[i]? with
    | none => simp
    | some c => simp
  unfold LetIndicator.precompute
  simp only [List.mem_map, List.mem_filter, List.mem_range, Bool.or_eq_true, Prod.mk.injEq]
  constructor
  · rintro ⟨j, ⟨hj, hf⟩, rfl, rfl⟩
    refine ⟨rfl, ?_⟩
    rcases hf with hf | hf
    · obtain ⟨h1, h2⟩ := isolated_iff.1 hf
      refine ⟨⟨text[j], by simp [hj], h2 _ (by simp [hj])⟩, .inl h1⟩
    · obtain ⟨h1, h2⟩ := hcon.1 hf
      exact ⟨h1, .inr h2⟩
  · rintro ⟨rfl, ⟨c, hc, hn⟩, hor⟩
    refine ⟨i, ⟨(List.getElem?_eq_some_iff.1 hc).1, ?_⟩, rfl, rfl⟩
    rcases hor with hi | hw
    · exact .inl (isolated_iff.2 ⟨hi, by intro d hd; rw [hc] at hd; cases hd; exact hn⟩)
    · exact .inr (hcon.2 ⟨⟨c, hc, hn⟩, hw⟩)

/-- **C28**, at most one sign per position, in order, inside the text. -/
theorem C28_positions (lower : Char → List Char) (l : LetIndicator) (text : Text) :
    (l.precompute lower text).Pairwise (fun a b => a.1 < b.1) ∧ ∀ q ∈ l.precompute lower text, q.1 < text.length := by
  unfold LetIndicator.precompute
  refine ⟨?_, ?_⟩
  · rw [List.pairwise_map]
    exact List.Pairwise.filter _ List.pairwise_lt_range
  · intro q hq
    simp only [List.mem_map, List.mem_filter, List.mem_range] at hq
    obtain ⟨i, ⟨hi, -⟩, rfl⟩ := hq
    exact hi

/-- The no-contraction sign is placed exactly at the contractions that stand as whole words. -/
theorem C28_nocontract_signs (ctx : CharClasses) (lower : Char → List Char) (cs : List Text) (dots : Text) (origin : Origin)
    (l : NocIndicator) (h : Dictionary ctx .forward (cs.map (contractionRule dots origin)) l.contractions) (text : Text)
    (i : Nat) (t : Resolved) :
    (i, t) ∈ l.precompute lower text ↔ t = l.start ∧ i < text.length ∧ ∃ w ∈ cs, WordHere ctx lower w text i := by
  unfold NocIndicator.precompute
  simp only [List.mem_map, List.mem_filter, List.mem_range, Prod.mk.injEq, ← contractionAt_iff h]
  constructor
  · rintro ⟨j, ⟨hj, hf⟩, rfl, rfl⟩
    exact ⟨rfl, hj, hf⟩
  · rintro ⟨rfl, hj, hf⟩
    exact ⟨i, ⟨hj, hf⟩, rfl, rfl⟩

/-! ## Concrete cases, and what is wrong -/

/-- Letters a–c, the space and the hyphen. -/
def signClasses : CharClasses := [(.letter, 'a'), (.letter, 'b'), (.letter, 'c'), (.space, ' '), (.punctuation, '-')]

/-- The dictionary with the single contraction "b". -/
def signTrie : Trie := ((Trie.insertAll signClasses .forward [contractionRule ['l'] ⟨.other, 0⟩ ['b']] Trie.empty).getD Trie.empty)

def signIndicator : LetIndicator where
  contractions := signTrie
  start := indication ['l'] ⟨.other, 0⟩
  letters := ['a', 'b', 'c']
  spaces := [' ']
  noletsign := ['c']
  after := ['-']
  before := []

theorem signTrie_dictionary : Dictionary signClasses .forward ([['b']].map (contractionRule ['l'] ⟨.other, 0⟩)) signTrie := by
  obtain ⟨t, ht⟩ := insertAll_some (ctx := signClasses) (d := .forward) [contractionRule ['l'] ⟨.other, 0⟩ ['b']] Trie.empty
    (by intro r hr; simp at hr; subst hr; simp [contractionRule, TrieRule.from])
  refine ⟨t, ht, ?_⟩
  have : signTrie = t := by simp [signTrie, ht]
  rw [this]
  exact ⟨(insertAll_spec ht map_empty).1, fun _ => rfl⟩

/-- Non-vacuity of `C28_letter_signs`: an isolated letter, a contraction, a letter of a word and a letter in `noletsign`. -/
example : (signIndicator.precompute (fun c => [c]) "a b ab 1c 1a".toList).map (·.1) = [0, 2, 11] := by
  decide +kernel

/-- **C28 is false for contractions**: after a character listed in `noletsignafter` (here the hyphen) a letter sign is still
placed if the letter is a contraction. -/
theorem C28_contraction_ignores_noletsignafter_wrong :
    '-' ∈ signIndicator.after ∧ (signIndicator.precompute (fun c => [c]) "-b".toList).map (·.1) = [1] ∧
      (signIndicator.precompute (fun c => [c]) "-a".toList).map (·.1) = [] := by
  decide +kernel

end Louis
