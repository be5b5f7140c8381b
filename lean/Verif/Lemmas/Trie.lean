import Verif.Spec.Trie
import Verif.Lemmas.Multipass

namespace Louis

/-! ## Paths -/

/-- The transitions of a path can be followed on this text. -/
def PathMatches (lower : Char → List Char) : List RTrans → Text → Option Char → Prop
  | [], _, _ => True
  | .char l :: p, c :: rest, _ => lower c = [l] ∧ PathMatches lower p rest (some c)
  | .char _ :: _, [], _ => False
  | .start r :: p, input, prev => r.matches prev ∧ PathMatches lower p input prev
  | .stop r :: p, input, prev => r.matches input.head? ∧ PathMatches lower p input prev

theorem kid_mem {k : RTrans} {t : Trie} : ∀ {kids : List (RTrans × Trie)}, kid k kids = some t → (k, t) ∈ kids
  | [], h => by simp [kid] at h
  | (k', t') :: rest, h => by
    simp only [kid] at h
    split at h
    · next e => cases h; subst e; exact List.mem_cons_self ..
    · exact List.mem_cons_of_mem _ (kid_mem h)

theorem kid_none {k : RTrans} : ∀ {kids : List (RTrans × Trie)}, k ∉ kids.map (·.1) → kid k kids = none
  | [], _ => rfl
  | (k', t') :: rest, h => by
    simp only [List.map_cons, List.mem_cons, not_or] at h
    simp only [kid, if_neg (Ne.symm h.1)]
    exact kid_none h.2

mutual
theorem mem_find {lower : Char → List Char} {tr : Resolved} : ∀ (t : Trie) (input : Text) (prev : Option Char), t.Map →
    (tr ∈ t.find lower input prev ↔ ∃ path, t.at path = some tr ∧ PathMatches lower path input prev)
  | .node x kids, input, prev, hm => by
    simp only [Trie.Map] at hm
    have h1 := mem_findChar (lower := lower) (tr := tr) kids input hm.1 hm.2
    have h2 := mem_findChecks (lower := lower) (tr := tr) kids input prev hm.1 hm.2
    rw [Trie.find, List.mem_append, List.mem_append, h1, h2]
    constructor
    · rintro ((h | ⟨k, p, hk, ha, hp⟩) | ⟨k, p, hk, ha, hp⟩)
      · refine ⟨[], ?_, trivial⟩
        simpa [Trie.at] using h
      · exact ⟨.char k :: p, ha, by
          cases input with
          | nil => exact hp.elim
          | cons c rest => exact hp⟩
      · exact ⟨k :: p, ha, hp⟩
    · rintro ⟨path, ha, hp⟩
      cases path with
      | nil => left; left; simpa [Trie.at] using ha
      | cons k p =>
        cases k with
        | char l =>
          left; right
          refine ⟨l, p, trivial, ha, ?_⟩
          cases input with
          | nil => exact hp.elim
          | cons c rest => exact hp
        | start r => right; exact ⟨.start r, p, by simp, ha, hp⟩
        | stop r => right; exact ⟨.stop r, p, by simp, ha, hp⟩
theorem mem_findChar {lower : Char → List Char} {tr : Resolved} : ∀ (kids : List (RTrans × Trie)) (input : Text),
    (kids.map (·.1)).Nodup → KidsMap kids →
    (tr ∈ findChar lower kids input ↔ ∃ l p, True ∧ (kid (.char l) kids).bind (Trie.at p) = some tr ∧
      PathMatches lower (.char l :: p) input none)
  | [], input, _, _ => by simp [findChar, kid]
  | _ :: _, [], _, _ => by simp [findChar, PathMatches]
  | (k, t) :: kids, c :: rest, hn, hm => by
    simp only [KidsMap] at hm
    simp only [List.map_cons, List.nodup_cons] at hn
    rw [findChar]
    split
    · next l hl =>
      split
      · next hk =>
        subst hk
        rw [mem_find t rest (some c) hm.1]
        constructor
        · rintro ⟨p, ha, hp⟩
          exact ⟨l, p, trivial, by simpa [kid] using ha, hl, hp⟩
        · rintro ⟨l', p, -, ha, hl', hp⟩
          rw [hl] at hl'
          cases hl'
          exact ⟨p, by simpa [kid] using ha, hp⟩
      · next hk =>
        rw [mem_findChar kids (c :: rest) hn.2 hm.2]
        constructor
        · rintro ⟨l', p, -, ha, hl', hp⟩
          rw [hl] at hl'
          cases hl'
          exact ⟨l, p, trivial, by rw [kid, if_neg hk]; exact ha, hl, hp⟩
        · rintro ⟨l', p, -, ha, hl', hp⟩
          rw [hl] at hl'
          cases hl'
          rw [kid, if_neg hk] at ha
          exact ⟨l, p, trivial, ha, hl, hp⟩
    · next hne =>
      constructor
      · intro h; cases h
      · rintro ⟨l', p, -, ha, hl', hp⟩
        exact absurd hl' (hne l')
theorem mem_findChecks {lower : Char → List Char} {tr : Resolved} : ∀ (kids : List (RTrans × Trie)) (input : Text)
    (prev : Option Char), (kids.map (·.1)).Nodup → KidsMap kids →
    (tr ∈ findChecks lower kids input prev ↔ ∃ k p, (∀ c, k ≠ .char c) ∧ (kid k kids).bind (Trie.at p) = some tr ∧
      PathMatches lower (k :: p) input prev)
  | [], input, prev, _, _ => by simp [findChecks, kid]
  | (.char c, t) :: kids, input, prev, hn, hm => by
    simp only [KidsMap] at hm
    simp only [List.map_cons, List.nodup_cons] at hn
    rw [findChecks, mem_findChecks kids input prev hn.2 hm.2]
    constructor
    · rintro ⟨k, p, hk, ha, hp⟩
      exact ⟨k, p, hk, by rw [kid, if_neg (Ne.symm (hk c))]; exact ha, hp⟩
    · rintro ⟨k, p, hk, ha, hp⟩
      rw [kid, if_neg (Ne.symm (hk c))] at ha
      exact ⟨k, p, hk, ha, hp⟩
  | (.start r, t) :: kids, input, prev, hn, hm => by
    simp only [KidsMap] at hm
    simp only [List.map_cons, List.nodup_cons] at hn
    rw [findChecks, List.mem_append, mem_findChecks kids input prev hn.2 hm.2]
    constructor
    · rintro (h | ⟨k, p, hk, ha, hp⟩)
      · split at h
        · next hr =>
          rw [mem_find t input prev hm.1] at h
          obtain ⟨p, ha, hp⟩ := h
          exact ⟨.start r, p, by simp, by simpa [kid] using ha, hr, hp⟩
        · cases h
      · refine ⟨k, p, hk, ?_, hp⟩
        rw [kid, if_neg]
        · exact ha
        · rintro rfl
          rw [kid_none hn.1] at ha
          cases ha
    · rintro ⟨k, p, hk, ha, hp⟩
      rw [kid] at ha
      split at ha
      · next e =>
        subst e
        left
        rw [if_pos hp.1, mem_find t input prev hm.1]
        exact ⟨p, ha, hp.2⟩
      · exact .inr ⟨k, p, hk, ha, hp⟩
  | (.stop r, t) :: kids, input, prev, hn, hm => by
    simp only [KidsMap] at hm
    simp only [List.map_cons, List.nodup_cons] at hn
    rw [findChecks, List.mem_append, mem_findChecks kids input prev hn.2 hm.2]
    constructor
    · rintro (h | ⟨k, p, hk, ha, hp⟩)
      · split at h
        · next hr =>
          rw [mem_find t input prev hm.1] at h
          obtain ⟨p, ha, hp⟩ := h
          exact ⟨.stop r, p, by simp, by simpa [kid] using ha, hr, hp⟩
        · cases h
      · refine ⟨k, p, hk, ?_, hp⟩
        rw [kid, if_neg]
        · exact ha
        · rintro rfl
          rw [kid_none hn.1] at ha
          cases ha
    · rintro ⟨k, p, hk, ha, hp⟩
      rw [kid] at ha
      split at ha
      · next e =>
        subst e
        left
        rw [if_pos hp.1, mem_find t input prev hm.1]
        exact ⟨p, ha, hp.2⟩
      · exact .inr ⟨k, p, hk, ha, hp⟩
end

/-! ## Insertion -/

theorem at_empty (path : List RTrans) : Trie.at path Trie.empty = none := by
  cases path <;> simp [Trie.at, Trie.empty, kid]

theorem kid_updKid (k k' : RTrans) (g : Trie → Trie) : ∀ kids,
    kid k' (updKid k g kids) = if k' = k then some (g ((kid k kids).getD Trie.empty)) else kid k' kids
  | [] => by
    by_cases h : k' = k
    · subst h; simp [updKid, kid]
    · simp [updKid, kid, h, Ne.symm h]
  | (k₂, t) :: rest => by
    rw [updKid]
    split
    · next e =>
      subst e
      by_cases h : k' = k₂
      · subst h; simp [kid]
      · simp [kid, h, Ne.symm h]
    · next e =>
      by_cases h : k' = k
      · subst h
        rw [kid, if_neg e, kid_updKid k' k' g rest, if_pos rfl, if_pos rfl, kid, if_neg e]
      · rw [if_neg h, kid, kid]
        split
        · rfl
        · rw [kid_updKid k k' g rest, if_neg h]

theorem at_modify (f : Option Resolved → Option Resolved) : ∀ (path path' : List RTrans) (t : Trie),
    (t.modify path f).at path' = if path' = path then f (t.at path) else t.at path'
  | [], path', .node tr kids => by
    cases path' with
    | nil => simp [Trie.modify, Trie.at]
    | cons k p => simp [Trie.modify, Trie.at]
  | k :: path, path', .node tr kids => by
    cases path' with
    | nil => simp [Trie.modify, Trie.at]
    | cons k' p =>
      simp only [Trie.modify, Trie.at]
      rw [kid_updKid]
      by_cases h : k' = k
      · subst h
        rw [if_pos rfl]
        simp only [Option.bind_some, List.cons.injEq, true_and]
        rw [at_modify f path p]
        cases hk : kid k' kids with
        | none => simp [at_empty]
        | some t => simp
      · rw [if_neg h, if_neg (by simp [h])]

theorem keys_updKid (k : RTrans) (g : Trie → Trie) : ∀ kids : List (RTrans × Trie),
    (updKid k g kids).map (·.1) = if k ∈ kids.map (·.1) then kids.map (·.1) else kids.map (·.1) ++ [k]
  | [] => by simp [updKid]
  | (k', t) :: rest => by
    rw [updKid]
    split
    · next e => subst e; simp
    · next e =>
      simp only [List.map_cons, List.mem_cons, keys_updKid k g rest, Ne.symm e, false_or]
      split <;> simp

theorem kidsMap_mem {kids : List (RTrans × Trie)} : KidsMap kids ↔ ∀ k t, (k, t) ∈ kids → t.Map := by
  induction kids with
  | nil => simp [KidsMap]
  | cons x xs ih =>
    obtain ⟨k, t⟩ := x
    simp only [KidsMap, ih, List.mem_cons, Prod.mk.injEq]
    constructor
    · rintro ⟨h1, h2⟩ k' t' (⟨-, rfl⟩ | h)
      · exact h1
      · exact h2 k' t' h
    · intro h
      exact ⟨h k t (.inl ⟨rfl, rfl⟩), fun k' t' h' => h k' t' (.inr h')⟩

theorem mem_updKid {k : RTrans} {g : Trie → Trie} {x : RTrans × Trie} : ∀ {kids : List (RTrans × Trie)},
    x ∈ updKid k g kids → x ∈ kids ∨ (∃ t, (k, t) ∈ kids ∧ x = (k, g t)) ∨ x = (k, g Trie.empty)
  | [], h => by simp only [updKid, List.mem_singleton] at h; exact .inr (.inr h)
  | (k', t) :: rest, h => by
    rw [updKid] at h
    split at h
    · next e =>
      subst e
      rcases List.mem_cons.1 h with rfl | h
      · exact .inr (.inl ⟨t, List.mem_cons_self .., rfl⟩)
      · exact .inl (List.mem_cons_of_mem _ h)
    · rcases List.mem_cons.1 h with rfl | h
      · exact .inl (List.mem_cons_self ..)
      · rcases mem_updKid h with h | ⟨t', h, e⟩ | h
        · exact .inl (List.mem_cons_of_mem _ h)
        · exact .inr (.inl ⟨t', List.mem_cons_of_mem _ h, e⟩)
        · exact .inr (.inr h)

theorem map_empty : Trie.empty.Map := by simp [Trie.empty, Trie.Map, KidsMap]

theorem map_modify (f : Option Resolved → Option Resolved) : ∀ (path : List RTrans) (t : Trie), t.Map → (t.modify path f).Map
  | [], .node tr kids, h => by simpa [Trie.modify, Trie.Map] using h
  | k :: path, .node tr kids, h => by
    simp only [Trie.Map] at h
    simp only [Trie.modify, Trie.Map]
    refine ⟨?_, ?_⟩
    · rw [keys_updKid]
      split
      · exact h.1
      · next hk =>
        rw [List.nodup_append]
        refine ⟨h.1, by simp, ?_⟩
        intro a ha b hb
        simp only [List.mem_singleton] at hb
        subst hb
        rintro rfl
        exact hk ha
    · rw [kidsMap_mem]
      intro k' t' hx
      have hk := kidsMap_mem.1 h.2
      rcases mem_updKid hx with hx | ⟨t, ht, e⟩ | e
      · exact hk k' t' hx
      · cases e; exact map_modify f path t (hk _ _ ht)
      · cases e; exact map_modify f path _ map_empty

/-! ## Resolved classes -/

theorem mem_insertSorted {c x : Char} : ∀ {l : List Char}, x ∈ insertSorted c l ↔ x = c ∨ x ∈ l
  | [] => by simp [insertSorted]
  | d :: ds => by
    rw [insertSorted]
    split
    · simp
    · split
      · next e => subst e; simp
      · simp only [List.mem_cons, mem_insertSorted]
        constructor
        · rintro (h | h | h)
          · exact .inr (.inl h)
          · exact .inl h
          · exact .inr (.inr h)
        · rintro (h | h | h)
          · exact .inr (.inl h)
          · exact .inl h
          · exact .inr (.inr h)

theorem mem_sortDedup {x : Char} : ∀ {l : List Char}, x ∈ sortDedup l ↔ x ∈ l
  | [] => by simp [sortDedup]
  | c :: cs => by rw [sortDedup, mem_insertSorted, mem_sortDedup]; simp

theorem mem_get {ctx : CharClasses} {k : CharClass} {c : Char} : c ∈ (ctx.get k).getD [] ↔ ctx.has k c := by
  have h2 : ctx.get k = none → ctx.filter (·.1 == k) = [] := by
    intro h
    simp only [CharClasses.get] at h
    split at h
    · assumption
    · cases h
  have h3 : ∀ l, ctx.get k = some l → l = (ctx.filter (·.1 == k)).map (·.2) := by
    intro l h
    simp only [CharClasses.get] at h
    split at h
    · cases h
    · cases h; rfl
  have h4 : (ctx.get k).getD [] = (ctx.filter (·.1 == k)).map (·.2) := by
    cases hg : ctx.get k with
    | none => simp [h2 hg]
    | some l => simpa using h3 l hg
  rw [h4]
  simp only [List.mem_map, List.mem_filter, beq_iff_eq, CharClasses.has, List.contains_iff_mem]
  constructor
  · rintro ⟨⟨k', c'⟩, ⟨h, rfl⟩, rfl⟩; exact h
  · intro h; exact ⟨(k, c), ⟨h, rfl⟩, rfl⟩

theorem matches_resolve {ctx : CharClasses} {ks : List CharClass} {o : Option Char} :
    (RClasses.resolve ctx ks).matches o ↔ NeighbourIn ctx ks o := by
  cases o with
  | none => simp [RClasses.matches, RClasses.resolve, NeighbourIn]
  | some c =>
    simp only [RClasses.matches, RClasses.resolve, NeighbourIn, List.contains_iff_mem, mem_sortDedup, List.mem_flatMap,
      mem_get]

/-! ## The path of a rule -/

theorem pathMatches_starts {lower : Char → List Char} {ctx : CharClasses} {p : List RTrans} {input : Text} {prev : Option Char} :
    ∀ cs : List ClassConstraint, PathMatches lower (startPath ctx cs ++ p) input prev ↔
      (∀ k, ClassConstraint.start k ∈ cs → NeighbourIn ctx [k] prev) ∧ PathMatches lower p input prev
  | [] => by simp [startPath]
  | .start k :: cs => by
    have ih := pathMatches_starts (lower := lower) (ctx := ctx) (p := p) (input := input) (prev := prev) cs
    simp only [startPath, List.filterMap_cons, List.cons_append, PathMatches, matches_resolve] at ih ⊢
    rw [ih]
    simp only [List.mem_cons, ClassConstraint.start.injEq]
    constructor
    · rintro ⟨h, h', h''⟩
      exact ⟨by rintro k' (rfl | h2); exact h; exact h' _ h2, h''⟩
    · rintro ⟨h, h'⟩
      exact ⟨h k (.inl rfl), fun k' h2 => h k' (.inr h2), h'⟩
  | .stop k :: cs => by
    have ih := pathMatches_starts (lower := lower) (ctx := ctx) (p := p) (input := input) (prev := prev) cs
    simp only [startPath, List.filterMap_cons] at ih ⊢
    rw [ih]
    simp

theorem pathMatches_stops {lower : Char → List Char} {ctx : CharClasses} {input : Text} {prev : Option Char} :
    ∀ cs : List ClassConstraint, PathMatches lower (stopPath ctx cs) input prev ↔
      (∀ k, ClassConstraint.stop k ∈ cs → NeighbourIn ctx [k] input.head?)
  | [] => by simp [stopPath, PathMatches]
  | .stop k :: cs => by
    have ih := pathMatches_stops (lower := lower) (ctx := ctx) (input := input) (prev := prev) cs
    simp only [stopPath, List.filterMap_cons, PathMatches, matches_resolve] at ih ⊢
    rw [ih]
    simp only [List.mem_cons, ClassConstraint.stop.injEq]
    constructor
    · rintro ⟨h, h'⟩ k' (rfl | h2)
      · exact h
      · exact h' _ h2
    · intro h
      exact ⟨h k (.inl rfl), fun k' h2 => h k' (.inr h2)⟩
  | .start k :: cs => by
    have ih := pathMatches_stops (lower := lower) (ctx := ctx) (input := input) (prev := prev) cs
    simp only [stopPath, List.filterMap_cons] at ih ⊢
    rw [ih]
    simp

theorem pathMatches_chars {lower : Char → List Char} {p : List RTrans} :
    ∀ (word : Text) (input : Text) (prev : Option Char), PathMatches lower (word.map .char ++ p) input prev ↔
      ∃ consumed rest, input = consumed ++ rest ∧ Spells lower consumed word ∧
        PathMatches lower p rest (consumed.getLast?.or prev)
  | [], input, prev => by
    constructor
    · intro h; exact ⟨[], input, rfl, .nil, by simpa using h⟩
    · rintro ⟨consumed, rest, rfl, h, hp⟩
      cases h
      simpa using hp
  | l :: word, [], prev => by
    simp only [List.map_cons, List.cons_append, PathMatches, false_iff]
    rintro ⟨consumed, rest, h, h', -⟩
    cases h'
    simp at h
  | l :: word, c :: input, prev => by
    simp only [List.map_cons, List.cons_append, PathMatches, pathMatches_chars word input (some c)]
    constructor
    · rintro ⟨hl, consumed, rest, rfl, hs, hp⟩
      refine ⟨c :: consumed, rest, rfl, .cons hl hs, ?_⟩
      have : (c :: consumed).getLast?.or prev = consumed.getLast?.or (some c) := by
        cases consumed with
        | nil => simp
        | cons x xs =>
          rw [List.getLast?_cons_cons, List.getLast?_eq_some_getLast (by simp)]
          rfl
      rwa [this]
    · rintro ⟨consumed, rest, h, hs, hp⟩
      cases hs with
      | @cons c' _ cs _ hl hs =>
        simp only [List.cons_append, List.cons.injEq] at h
        obtain ⟨rfl, rfl⟩ := h
        refine ⟨hl, cs, rest, rfl, hs, ?_⟩
        have : (c :: cs).getLast?.or prev = cs.getLast?.or (some c) := by
          cases cs with
          | nil => simp
          | cons x xs =>
            rw [List.getLast?_cons_cons, List.getLast?_eq_some_getLast (by simp)]
            rfl
        rwa [this] at hp

theorem path_iff {ctx : CharClasses} {lower : Char → List Char} {d : Direction} {r : TrieRule} {input : Text}
    {prev : Option Char} : PathMatches lower (r.path ctx d) input prev ↔ RuleMatches ctx lower d r input prev := by
  have hb : ∀ p, PathMatches lower ((r.before.map fun ks => RTrans.start (RClasses.resolve ctx ks)).toList ++ p) input prev ↔
      (∀ ks, r.before = some ks → NeighbourIn ctx ks prev) ∧ PathMatches lower p input prev := by
    intro p
    cases r.before with
    | none => simp
    | some ks => simp [PathMatches, matches_resolve]
  have ha : ∀ p rest pr, PathMatches lower ((r.after.map fun ks => RTrans.stop (RClasses.resolve ctx ks)).toList ++ p) rest pr ↔
      (∀ ks, r.after = some ks → NeighbourIn ctx ks rest.head?) ∧ PathMatches lower p rest pr := by
    intro p rest pr
    cases r.after with
    | none => simp
    | some ks => simp [PathMatches, matches_resolve]
  unfold TrieRule.path
  simp only [List.append_assoc]
  rw [pathMatches_starts, hb, pathMatches_chars]
  simp only [ha, pathMatches_stops, RuleMatches]
  constructor
  · rintro ⟨h1, h2, c, rest, e, hs, h3, h4⟩
    exact ⟨c, rest, e, hs, h2, h3, h1, h4⟩
  · rintro ⟨c, rest, e, hs, h2, h3, h1, h4⟩
    exact ⟨h1, h2, c, rest, e, hs, h3, h4⟩

/-! ## Sequences of insertions -/

/-- What the insertions leave at a path. -/
def storeAll (ctx : CharClasses) (d : Direction) (path : List RTrans) (rs : List TrieRule) (o : Option Resolved) :
    Option Resolved :=
  rs.foldl (fun o r => if r.path ctx d = path then r.store d o else o) o

theorem insertAll_spec {ctx : CharClasses} {d : Direction} : ∀ {rs : List TrieRule} {t t' : Trie},
    Trie.insertAll ctx d rs t = some t' → t.Map →
    t'.Map ∧ (∀ path, t'.at path = storeAll ctx d path rs (t.at path)) ∧ ∀ r ∈ rs, r.from d ≠ [] := by
  intro rs
  induction rs with
  | nil => intro t t' h hm; cases h; exact ⟨hm, fun _ => rfl, by simp⟩
  | cons r rs ih =>
    intro t t' h hm
    simp only [Trie.insertAll, Trie.insert] at h
    split at h
    · cases h
    · next hne =>
      obtain ⟨h1, h2, h3⟩ := ih h (map_modify _ _ _ hm)
      refine ⟨h1, ?_, ?_⟩
      · intro path
        rw [h2 path, at_modify]
        simp only [storeAll, List.foldl_cons]
        congr 1
        by_cases e : path = r.path ctx d
        · subst e; simp
        · rw [if_neg e, if_neg (Ne.symm e)]
      · intro x hx
        rcases List.mem_cons.1 hx with rfl | hx
        · exact hne
        · exact h3 x hx

theorem storeAll_filter {ctx : CharClasses} {d : Direction} {path : List RTrans} : ∀ (rs : List TrieRule) (o : Option Resolved),
    storeAll ctx d path rs o = (rs.filter fun r => r.path ctx d = path).foldl (fun o r => r.store d o) o := by
  intro rs
  induction rs with
  | nil => intro o; rfl
  | cons r rs ih =>
    intro o
    simp only [storeAll, List.foldl_cons] at ih ⊢
    rw [ih]
    by_cases h : r.path ctx d = path
    · simp [h]
    · simp [h]

theorem fromRule_new (d : Direction) (r : TrieRule) (w : Nat) (h : w = r.weight d ∨ w = (r.from d).length) :
    FromRule d r (Resolved.new (r.from d) (r.to d) w r.stage (some r.origin)) :=
  ⟨rfl, rfl, rfl, rfl, rfl, rfl, rfl, h⟩

theorem store_foldl_from {d : Direction} : ∀ {rs : List TrieRule} {o : Option Resolved} {t : Resolved},
    rs.foldl (fun o r => r.store d o) o = some t → o = some t ∨ ∃ r ∈ rs, FromRule d r t := by
  intro rs
  induction rs with
  | nil => intro o t h; exact .inl h
  | cons r rs ih =>
    intro o t h
    rcases ih h with h' | ⟨r', hr', hf⟩
    · cases o with
      | none =>
        simp only [TrieRule.store, Option.some.injEq] at h'
        subst h'
        exact .inr ⟨r, List.mem_cons_self .., fromRule_new _ _ _ (.inl rfl)⟩
      | some x =>
        simp only [TrieRule.store] at h'
        split at h'
        · cases h'
          exact .inr ⟨r, List.mem_cons_self .., fromRule_new _ _ _ (.inr rfl)⟩
        · exact .inl h'
    · exact .inr ⟨r', List.mem_cons_of_mem _ hr', hf⟩

theorem store_foldl_some {d : Direction} : ∀ {rs : List TrieRule} {o : Option Resolved}, (o ≠ none ∨ rs ≠ []) →
    ∃ t, rs.foldl (fun o r => r.store d o) o = some t := by
  intro rs
  induction rs with
  | nil => intro o h; cases o with
    | none => simp at h
    | some t => exact ⟨t, rfl⟩
  | cons r rs ih =>
    intro o _
    apply ih
    left
    cases o with
    | none => simp [TrieRule.store]
    | some t => simp only [TrieRule.store]; split <;> simp

end Louis
