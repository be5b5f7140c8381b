import Verif.Lemmas.Trie

/-!
# Properties C13, C14, C41, C46: the dictionary of translation rules

`t` is the dictionary built by inserting `rules` in table order; `t'` is any dictionary with the same entries, i.e. the
same hash maps listed in any iteration order.
-/

namespace Louis

/-- `t'` is the dictionary built from the rules, its hash maps being listed in an arbitrary order. -/
def Dictionary (ctx : CharClasses) (d : Direction) (rules : List TrieRule) (t' : Trie) : Prop :=
  ∃ t, Trie.insertAll ctx d rules Trie.empty = some t ∧ t.SameEntries t'

theorem Dictionary.at {ctx d rules t'} (h : Dictionary ctx d rules t') (path : List RTrans) :
    t'.at path = (rules.filter fun r => r.path ctx d = path).foldl (fun o r => r.store d o) none := by
  obtain ⟨t, h1, h2⟩ := h
  obtain ⟨-, h3, -⟩ := insertAll_spec h1 map_empty
  rw [h2.2, h3, at_empty, storeAll_filter]

theorem insertAll_some {ctx : CharClasses} {d : Direction} : ∀ (rules : List TrieRule) (t : Trie), (∀ r ∈ rules, r.from d ≠ []) →
    ∃ t', Trie.insertAll ctx d rules t = some t'
  | [], t, _ => ⟨t, rfl⟩
  | r :: rs, t, h => by
    simp only [Trie.insertAll, Trie.insert, if_neg (h r (List.mem_cons_self ..)), Option.bind_some]
    exact insertAll_some rs _ (fun x hx => h x (List.mem_cons_of_mem _ hx))

/-- A dictionary exists for every list of rules without empty left-hand sides. -/
theorem dictionary_exists (ctx : CharClasses) (d : Direction) (rules : List TrieRule) (h : ∀ r ∈ rules, r.from d ≠ []) :
    ∃ t, Dictionary ctx d rules t := by
  obtain ⟨t, ht⟩ := insertAll_some rules Trie.empty h
  exact ⟨t, t, ht, (insertAll_spec ht map_empty).1, fun _ => rfl⟩

/-! ## C13 -/

/-- **C13, soundness.** Everything found is the translation of a rule that applies here. -/
theorem C13_found_rule_applies (ctx : CharClasses) (lower : Char → List Char) (d : Direction) (rules : List TrieRule)
    (t' : Trie) (h : Dictionary ctx d rules t') (input : Text) (prev : Option Char) (tr : Resolved)
    (hf : tr ∈ t'.find lower input prev) : ∃ r ∈ rules, RuleMatches ctx lower d r input prev ∧ FromRule d r tr := by
  have hmap : t'.Map := by obtain ⟨t, -, h2⟩ := h; exact h2.1
  obtain ⟨path, ha, hp⟩ := (mem_find t' input prev hmap).1 hf
  rw [h.at] at ha
  rcases store_foldl_from ha with h0 | ⟨r, hr, hfr⟩
  · cases h0
  · obtain ⟨hr, e⟩ := List.mem_filter.1 hr
    refine ⟨r, hr, ?_, hfr⟩
    rw [← path_iff]
    simpa [of_decide_eq_true e] using hp

theorem chars_of_path {ctx : CharClasses} {d : Direction} (r : TrieRule) :
    ((r.path ctx d).filterMap fun | .char c => some c | _ => none) = r.from d := by
  have h1 : ∀ cs, (startPath ctx cs).filterMap (fun | .char c => some c | _ => none) = ([] : Text) := by
    intro cs
    rw [List.filterMap_eq_nil_iff]
    intro x hx
    simp only [startPath, List.mem_filterMap] at hx
    obtain ⟨a, -, ha⟩ := hx
    cases a <;> simp at ha
    subst ha; rfl
  have h2 : ∀ cs, (stopPath ctx cs).filterMap (fun | .char c => some c | _ => none) = ([] : Text) := by
    intro cs
    rw [List.filterMap_eq_nil_iff]
    intro x hx
    simp only [stopPath, List.mem_filterMap] at hx
    obtain ⟨a, -, ha⟩ := hx
    cases a <;> simp at ha
    subst ha; rfl
  have h3 : ∀ l : Text, (l.map RTrans.char).filterMap (fun | .char c => some c | _ => none) = l := by
    intro l; induction l with
    | nil => rfl
    | cons c l ih => simp [ih]
  unfold TrieRule.path
  simp only [List.filterMap_append, h1, h2, h3]
  cases r.before <;> cases r.after <;> simp

theorem sameConditions_of_path {ctx : CharClasses} {lower : Char → List Char} {d : Direction} {r r' : TrieRule}
    (h : r.path ctx d = r'.path ctx d) : SameConditions ctx lower d r r' := by
  refine ⟨?_, ?_⟩
  · rw [← chars_of_path (ctx := ctx) r, ← chars_of_path (ctx := ctx) r', h]
  · intro input prev
    rw [← path_iff, ← path_iff, h]

/-- **C13, completeness.** If a rule applies here, the translation of that rule, or of another rule with the same characters
and the same conditions, is found. -/
theorem C13_applying_rule_found (ctx : CharClasses) (lower : Char → List Char) (d : Direction) (rules : List TrieRule)
    (t' : Trie) (h : Dictionary ctx d rules t') (input : Text) (prev : Option Char) (r : TrieRule) (hr : r ∈ rules)
    (hm : RuleMatches ctx lower d r input prev) :
    ∃ tr ∈ t'.find lower input prev, ∃ r' ∈ rules, SameConditions ctx lower d r r' ∧ FromRule d r' tr := by
  have hmap : t'.Map := by obtain ⟨t, -, h2⟩ := h; exact h2.1
  obtain ⟨tr, htr⟩ := store_foldl_some (d := d) (rs := rules.filter fun x => x.path ctx d = r.path ctx d) (o := none)
    (.inr (by
      intro he
      have : r ∈ rules.filter fun x => x.path ctx d = r.path ctx d := List.mem_filter.2 ⟨hr, by simp⟩
      rw [he] at this
      cases this))
  refine ⟨tr, (mem_find t' input prev hmap).2 ⟨r.path ctx d, by rw [h.at, htr], path_iff.2 hm⟩, ?_⟩
  rcases store_foldl_from htr with h0 | ⟨r', hr', hf⟩
  · cases h0
  · obtain ⟨hr', e⟩ := List.mem_filter.1 hr'
    exact ⟨r', hr', sameConditions_of_path (of_decide_eq_true e).symm, hf⟩

theorem filter_unique {α β : Type} [DecidableEq β] {f : α → β} : ∀ {l : List α} {a : α}, (l.map f).Nodup → a ∈ l →
    (l.filter fun x => f x = f a) = [a]
  | [], _, _, h => by cases h
  | x :: xs, a, hn, h => by
    simp only [List.map_cons, List.nodup_cons] at hn
    rcases List.mem_cons.1 h with rfl | h
    · rw [List.filter_cons, if_pos (by simp)]
      congr 1
      rw [List.filter_eq_nil_iff]
      intro y hy
      simp only [decide_eq_true_eq]
      intro e
      exact hn.1 (e ▸ List.mem_map_of_mem hy)
    · rw [List.filter_cons, if_neg, filter_unique hn.2 h]
      simp only [decide_eq_true_eq]
      intro e
      exact hn.1 (e ▸ List.mem_map_of_mem h)

/-- **C13, exactness.** When no two rules share characters and conditions, the translations found are exactly those of the
rules that apply here, each with its replacement and with weight = characters + conditions. -/
theorem C13_find_exact (ctx : CharClasses) (lower : Char → List Char) (d : Direction) (rules : List TrieRule)
    (t' : Trie) (h : Dictionary ctx d rules t') (hdistinct : (rules.map fun r => r.path ctx d).Nodup) (input : Text)
    (prev : Option Char) (tr : Resolved) :
    tr ∈ t'.find lower input prev ↔ ∃ r ∈ rules, RuleMatches ctx lower d r input prev ∧
      tr = Resolved.new (r.from d) (r.to d) (r.weight d) r.stage (some r.origin) := by
  have hmap : t'.Map := by obtain ⟨t, -, h2⟩ := h; exact h2.1
  rw [mem_find t' input prev hmap]
  constructor
  · rintro ⟨path, ha, hp⟩
    rw [h.at] at ha
    by_cases hex : ∃ r ∈ rules, r.path ctx d = path
    · obtain ⟨r, hr, rfl⟩ := hex
      rw [filter_unique hdistinct hr] at ha
      simp only [List.foldl_cons, List.foldl_nil, TrieRule.store, Option.some.injEq] at ha
      exact ⟨r, hr, path_iff.1 hp, ha.symm⟩
    · have : rules.filter (fun r => r.path ctx d = path) = [] := by
        rw [List.filter_eq_nil_iff]
        intro r hr
        simp only [decide_eq_true_eq]
        exact fun e => hex ⟨r, hr, e⟩
      rw [this] at ha
      cases ha
  · rintro ⟨r, hr, hm, rfl⟩
    refine ⟨r.path ctx d, ?_, path_iff.2 hm⟩
    rw [h.at, filter_unique hdistinct hr]
    rfl

/-- **C15 (dictionary).** Weights compare as documented: of two rules with the same conditions the longer one is heavier,
and with the same characters the one with more conditions. -/
theorem C15_longer_rule_heavier (d : Direction) (r r' : TrieRule) (hlen : (r.from d).length < (r'.from d).length)
    (hc : r'.constraints.length = r.constraints.length) (hb : r'.before.isSome = r.before.isSome)
    (ha : r'.after.isSome = r.after.isSome) : r.weight d < r'.weight d := by
  simp only [TrieRule.weight, hc]
  have : r'.before.toList.length = r.before.toList.length := by
    cases hx : r.before <;> cases hy : r'.before <;> simp_all
  have : r'.after.toList.length = r.after.toList.length := by
    cases hx : r.after <;> cases hy : r'.after <;> simp_all
  omega

/-! ## C14 -/

theorem store_default_keeps {d : Direction} : ∀ {rs : List TrieRule} {t : Resolved}, (∀ r ∈ rs, r.prec = .default) →
    rs.foldl (fun o r => r.store d o) (some t) = some t := by
  intro rs
  induction rs with
  | nil => intro t _; rfl
  | cons r rs ih =>
    intro t h
    simp only [List.foldl_cons, TrieRule.store]
    rw [if_neg (by rw [h r (List.mem_cons_self ..)]; simp [Prec.rank])]
    exact ih (fun x hx => h x (List.mem_cons_of_mem _ hx))

theorem store_last_prec {d : Direction} : ∀ {rs after : List TrieRule} {r : TrieRule} {t : Resolved}, t.prec = .default →
    r.prec ≠ .default → (∀ x ∈ after, x.prec = .default) →
    (rs ++ r :: after).foldl (fun o r => r.store d o) (some t) =
      some (Resolved.new (r.from d) (r.to d) (r.from d).length r.stage (some r.origin)) := by
  intro rs
  induction rs with
  | nil =>
    intro after r t ht hr ha
    simp only [List.nil_append, List.foldl_cons, TrieRule.store, ht]
    rw [if_pos (by cases hp : r.prec <;> simp_all [Prec.rank])]
    exact store_default_keeps ha
  | cons x xs ih =>
    intro after r t ht hr ha
    simp only [List.cons_append, List.foldl_cons, TrieRule.store]
    split
    · exact ih rfl hr ha
    · exact ih ht hr ha

/-- **C14, the part that holds.** If of the rules with given characters and conditions only the first may have a
precedence (is an `always`-like rule), the first one's translation is used. -/
theorem C14_first_wins_partial (ctx : CharClasses) (d : Direction) (rules : List TrieRule) (t' : Trie)
    (h : Dictionary ctx d rules t') (before after : List TrieRule) (r : TrieRule) (hrules : rules = before ++ r :: after)
    (hfirst : ∀ x ∈ before, x.path ctx d ≠ r.path ctx d)
    (hlater : ∀ x ∈ after, x.path ctx d = r.path ctx d → x.prec = .default) :
    t'.at (r.path ctx d) = some (Resolved.new (r.from d) (r.to d) (r.weight d) r.stage (some r.origin)) := by
  have hb : before.filter (fun x => x.path ctx d = r.path ctx d) = [] := by
    rw [List.filter_eq_nil_iff]; intro x hx; simpa using hfirst x hx
  rw [h.at, hrules, List.filter_append, hb, List.nil_append, List.filter_cons, if_pos (by simp)]
  simp only [List.foldl_cons, TrieRule.store]
  exact store_default_keeps (by
    intro x hx
    obtain ⟨h1, h2⟩ := List.mem_filter.1 hx
    exact hlater x h1 (of_decide_eq_true h2))

/-- **C14 is false of the code**: what happens instead.  Among the rules with given characters and conditions, as
soon as a rule *after the first* is an `always`/word-family/indicator rule, the **last** such rule wins, and its weight no
longer counts its conditions. -/
theorem C14_last_wins_wrong (ctx : CharClasses) (d : Direction) (rules : List TrieRule) (t' : Trie)
    (h : Dictionary ctx d rules t') (before middle after : List TrieRule) (r₁ r₂ : TrieRule)
    (hrules : rules = before ++ r₁ :: (middle ++ r₂ :: after)) (hsame : r₁.path ctx d = r₂.path ctx d)
    (hprec : r₂.prec ≠ .default) (hlater : ∀ x ∈ after, x.path ctx d = r₂.path ctx d → x.prec = .default) :
    t'.at (r₁.path ctx d) = some (Resolved.new (r₂.from d) (r₂.to d) (r₂.from d).length r₂.stage (some r₂.origin)) := by
  rw [h.at, hrules, List.filter_append, List.filter_cons, if_pos (by simp), List.filter_append,
    List.filter_cons (x := r₂), if_pos (by simp [hsame])]
  have hkeep : ∀ x ∈ after.filter (fun x => x.path ctx d = r₁.path ctx d), x.prec = .default := by
    intro x hx
    obtain ⟨h1, h2⟩ := List.mem_filter.1 hx
    exact hlater x h1 (by rw [of_decide_eq_true h2, hsame])
  rw [List.foldl_append, List.foldl_cons]
  generalize hF : (before.filter fun x => x.path ctx d = r₁.path ctx d).foldl (fun o r => r.store d o) none = F
  have hprecF : ∀ t, F = some t → t.prec = .default := by
    intro t ht
    subst hF
    rcases store_foldl_from ht with h0 | ⟨_, _, hf⟩
    · cases h0
    · exact hf.prec
  cases F with
  | none => exact store_last_prec rfl hprec hkeep
  | some t =>
    simp only [TrieRule.store]
    split
    · exact store_last_prec rfl hprec hkeep
    · exact store_last_prec (hprecF t rfl) hprec hkeep

/-- `always foo 1` followed by `always foo 2`. -/
def alwaysFoo (dots : Text) (i : Nat) : TrieRule := ⟨"foo".toList, dots, none, none, [], .translation, .main, ⟨.other, i⟩⟩

/-- A concrete instance: with `always foo 1` and then `always foo 2` in the table, "foo" is translated by the second. -/
theorem C14_two_always_wrong :
    ∃ t, Dictionary [] .forward [alwaysFoo ['⠁'] 1, alwaysFoo ['⠂'] 2] t ∧
      (t.find (fun c => [c]) "foo".toList none).map (·.output) = [['⠂']] := by
  refine ⟨_, ⟨_, rfl, ⟨by simp [alwaysFoo, Trie.modify, updKid, TrieRule.path, TrieRule.from, Trie.Map, KidsMap, startPath,
    stopPath, Trie.empty], fun _ => rfl⟩⟩, by decide⟩

/-! ## C41 -/

/-- **C41, the part that holds.** The set of translations found does not depend on the order in which hash maps are listed. -/
theorem C41_same_candidates (ctx : CharClasses) (lower : Char → List Char) (d : Direction) (rules : List TrieRule)
    (t₁ t₂ : Trie) (h₁ : Dictionary ctx d rules t₁) (h₂ : Dictionary ctx d rules t₂) (input : Text) (prev : Option Char)
    (tr : Resolved) : tr ∈ t₁.find lower input prev ↔ tr ∈ t₂.find lower input prev := by
  have m₁ : t₁.Map := by obtain ⟨t, -, h⟩ := h₁; exact h.1
  have m₂ : t₂.Map := by obtain ⟨t, -, h⟩ := h₂; exact h.1
  rw [mem_find t₁ input prev m₁, mem_find t₂ input prev m₂]
  simp only [h₁.at, h₂.at]

/-- **C41, the part that holds.** The choice by weight is independent of the order of hash maps whenever no two different
translations found have equal weight. -/
theorem C41_deterministic_partial (ctx : CharClasses) (lower : Char → List Char) (d : Direction) (rules : List TrieRule)
    (t₁ t₂ : Trie) (h₁ : Dictionary ctx d rules t₁) (h₂ : Dictionary ctx d rules t₂) (input : Text) (prev : Option Char)
    (huniq : ∀ a ∈ t₁.find lower input prev, ∀ b ∈ t₁.find lower input prev, a.weight = b.weight → a = b) :
    heaviest (t₁.find lower input prev) = heaviest (t₂.find lower input prev) := by
  have hs := C41_same_candidates ctx lower d rules t₁ t₂ h₁ h₂ input prev
  cases e1 : heaviest (t₁.find lower input prev) with
  | none =>
    rw [heaviest_none] at e1
    cases e2 : heaviest (t₂.find lower input prev) with
    | none => rfl
    | some b =>
      have := (hs b).2 (heaviest_mem e2)
      rw [e1] at this; cases this
  | some a =>
    cases e2 : heaviest (t₂.find lower input prev) with
    | none =>
      rw [heaviest_none] at e2
      have := (hs a).1 (heaviest_mem e1)
      rw [e2] at this; cases this
    | some b =>
      have ha := heaviest_mem e1
      have hb := (hs b).2 (heaviest_mem e2)
      have h1 := heaviest_max e1 b hb
      have h2 := heaviest_max e2 a ((hs a).1 ha)
      rw [huniq a ha b hb (by omega)]

/-- `after vowel always b 1` and `after letter always b 2`. -/
def afterB (k : CharClass) (dots : Text) (i : Nat) : TrieRule :=
  ⟨['b'], dots, none, none, [.start k], .translation, .main, ⟨.other, i⟩⟩

def vowel : CharClass := .user "vowel".toList
def letters : CharClasses := [(.letter, 'a'), (.letter, 'b'), (vowel, 'a')]

/-- The path `Start class`, `b` with a translation. -/
def afterNode (k : CharClass) (dots : Text) (i : Nat) : RTrans × Trie :=
  (.start (RClasses.resolve letters [k]),
    .node none [(.char 'b', .node (some (Resolved.new ['b'] dots 2 .main (some ⟨.other, i⟩))) [])])

theorem at_two {a b : RTrans × Trie} (hne : a.1 ≠ b.1) (path : List RTrans) :
    Trie.at path (.node none [a, b]) = Trie.at path (.node none [b, a]) := by
  cases path with
  | nil => rfl
  | cons k p =>
    simp only [Trie.at, kid]
    by_cases h1 : a.1 = k
    · by_cases h2 : b.1 = k
      · exact absurd (h1.trans h2.symm) hne
      · simp [h1, h2]
    · simp [h1]

/-- **C41 is false of the code.** Two rules for "b" that differ only in their class condition (`after vowel`,
`after letter`) are equally heavy; after "a" both apply, and which one is chosen depends on the iteration order of the
root's hash map, which is randomised in every process. -/
theorem C41_hash_order_observable_wrong :
    ∃ t₁ t₂, Dictionary letters .forward [afterB vowel ['⠁'] 1, afterB .letter ['⠂'] 2] t₁ ∧
      Dictionary letters .forward [afterB vowel ['⠁'] 1, afterB .letter ['⠂'] 2] t₂ ∧
      (heaviest (t₁.find (fun c => [c]) ['b'] (some 'a'))).map (·.output) = some ['⠂'] ∧
      (heaviest (t₂.find (fun c => [c]) ['b'] (some 'a'))).map (·.output) = some ['⠁'] := by
  have hne : (afterNode vowel ['⠁'] 1).1 ≠ (afterNode .letter ['⠂'] 2).1 := by decide
  refine ⟨.node none [afterNode vowel ['⠁'] 1, afterNode .letter ['⠂'] 2],
    .node none [afterNode .letter ['⠂'] 2, afterNode vowel ['⠁'] 1],
    ⟨.node none [afterNode vowel ['⠁'] 1, afterNode .letter ['⠂'] 2], rfl, ?_, fun _ => rfl⟩,
    ⟨.node none [afterNode vowel ['⠁'] 1, afterNode .letter ['⠂'] 2], rfl, ?_, fun p => (at_two hne p).symm⟩,
    by decide, by decide⟩
  · simp [Trie.Map, KidsMap, afterNode]; decide
  · simp [Trie.Map, KidsMap, afterNode]; decide

/-! ## C46 -/

theorem spells_lower {lower : Char → List Char} (hidem : ∀ c l, lower c = [l] → lower l = [l]) :
    ∀ {consumed word : Text}, Spells lower consumed word → ∀ l ∈ word, lower l = [l] := by
  intro consumed word h
  induction h with
  | nil => intro l hl; cases hl
  | cons hl _ ih =>
    intro x hx
    rcases List.mem_cons.1 hx with rfl | hx
    · exact hidem _ _ hl
    · exact ih x hx

/-- **C46 is false of the code.** A rule written with a character that is not its own lowercase (for example an upper-case
letter) never applies to any text, not even to its own characters. -/
theorem C46_uppercase_rule_dead_wrong (ctx : CharClasses) (lower : Char → List Char)
    (hidem : ∀ c l, lower c = [l] → lower l = [l]) (d : Direction) (r : TrieRule) (c : Char) (hc : c ∈ r.from d)
    (hup : lower c ≠ [c]) (rules : List TrieRule) (t' : Trie) (h : Dictionary ctx d rules t') (input : Text)
    (prev : Option Char) : ¬ RuleMatches ctx lower d r input prev ∧ ∀ tr ∈ t'.find lower input prev, ¬ FromRule d r tr := by
  refine ⟨?_, ?_⟩
  · rintro ⟨consumed, rest, -, hs, -⟩
    exact hup (spells_lower hidem hs c hc)
  · intro tr htr hf
    obtain ⟨r', _, ⟨consumed, rest, -, hs, -⟩, hf'⟩ := C13_found_rule_applies ctx lower d rules t' h input prev tr htr
    exact hup (spells_lower hidem hs c (by rw [← hf'.input, hf.input]; exact hc))

theorem spells_self {lower : Char → List Char} : ∀ {word : Text}, (∀ c ∈ word, lower c = [c]) → Spells lower word word
  | [], _ => .nil
  | c :: _, h => .cons (h c (List.mem_cons_self ..)) (spells_self (fun x hx => h x (List.mem_cons_of_mem _ hx)))

/-- **C46, the part that holds.** A rule all of whose characters are their own lowercase and that has no conditions applies
to its own characters, whatever follows. -/
theorem C46_lowercase_rule_applies_partial (ctx : CharClasses) (lower : Char → List Char) (d : Direction) (r : TrieRule)
    (hl : ∀ c ∈ r.from d, lower c = [c]) (hb : r.before = none) (ha : r.after = none) (hc : r.constraints = [])
    (rest : Text) (prev : Option Char) : RuleMatches ctx lower d r (r.from d ++ rest) prev :=
  ⟨r.from d, rest, rfl, spells_self hl, by simp [hb], by simp [ha], by simp [hc], by simp [hc]⟩

end Louis
