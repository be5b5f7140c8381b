import Verif.Props.WordsCaps

/-!
# C75: all signs on both sides of a blank
-/

namespace Louis

/-- Signs that are given by what is said about each place. -/
structure Placed (text : Text) (P : Nat → Resolved → Prop) (l : List (Nat × Resolved)) : Prop where
  order : l.Pairwise fun a b => a.1 < b.1
  mem : ∀ p t, (p, t) ∈ l ↔ p < text.length ∧ P p t

theorem Placed.bound {text : Text} {P : Nat → Resolved → Prop} {l : List (Nat × Resolved)} (h : Placed text P l) :
    ∀ q ∈ l, q.1 < text.length := fun q hq => ((h.mem q.1 q.2).1 hq).1

theorem placed_split {w v : Text} {b : Char} {P P₁ P₂ : Nat → Resolved → Prop} {l l₁ l₂ : List (Nat × Resolved)}
    (h : Placed (w ++ b :: v) P l) (h1 : Placed w P₁ l₁) (h2 : Placed v P₂ l₂) (left : ∀ p < w.length, ∀ t, P p t ↔ P₁ p t)
    (blank : ∀ t, ¬ P w.length t) (right : ∀ p < v.length, ∀ t, P (w.length + 1 + p) t ↔ P₂ p t) :
    l = l₁ ++ later (w.length + 1) l₂ := by
  refine ordered_ext (r := fun a b : Nat × Resolved => a.1 < b.1) (fun a b h k => by omega) h.order ?_ ?_
  · rw [List.pairwise_append]
    refine ⟨h1.order, ?_, ?_⟩
    · unfold later
      rw [List.pairwise_map]
      exact h2.order.imp fun h => by simp only; omega
    · intro a ha c hc
      obtain ⟨c', -, rfl⟩ := List.mem_map.1 hc
      have := h1.bound a ha
      simp only
      omega
  · rintro ⟨p, t⟩
    rw [h.mem, List.mem_append, h1.mem]
    have hl : (w ++ b :: v).length = w.length + 1 + v.length := by simp; omega
    rw [hl]
    rcases Nat.lt_trichotomy p w.length with hp | hp | hp
    · rw [left p hp]
      refine ⟨fun h => .inl ⟨hp, h.2⟩, ?_⟩
      rintro (h | h)
      · exact ⟨by omega, h.2⟩
      · obtain ⟨c, -, e⟩ := List.mem_map.1 h
        injection e with e _
        omega
    · subst hp
      refine ⟨fun h => absurd h.2 (blank t), ?_⟩
      rintro (h | h)
      · omega
      · obtain ⟨c, -, e⟩ := List.mem_map.1 h
        injection e with e _
        omega
    · obtain ⟨p, rfl⟩ : ∃ k', p = w.length + 1 + k' := ⟨p - w.length - 1, by omega⟩
      constructor
      · rintro ⟨a, c⟩
        exact .inr (List.mem_map.2 ⟨(p, t), (h2.mem p t).2 ⟨by omega, (right p (by omega) t).1 c⟩, rfl⟩)
      · rintro (h | h)
        · omega
        · obtain ⟨⟨q, s⟩, hq, e⟩ := List.mem_map.1 h
          injection e with e1 e2
          simp only at e1 e2
          subst e2
          have : q = p := by omega
          subst this
          have := (h2.mem q s).1 hq
          exact ⟨by omega, (right q this.1 s).2 this.2⟩

theorem placed_none {b : Char} {P : Nat → Resolved → Prop} {l : List (Nat × Resolved)} (h : Placed [b] P l) (h0 : ∀ t, ¬ P 0 t) :
    l = [] := by
  rw [List.eq_nil_iff_forall_not_mem]
  rintro ⟨p, t⟩ hq
  obtain ⟨h1, h2⟩ := (h.mem p t).1 hq
  have : p = 0 := by simpa using h1
  subst this
  exact h0 t h2

/-! ## Numbers -/

/-- What is said about the number signs. -/
def NumHere (x : NumIndicator) (sign : Resolved) (text : Text) (p : Nat) (t : Resolved) : Prop :=
  (t = sign ∧ DigitAt x.chars text p ∧ ¬ AfterNumber x.chars text p) ∨
    (x.stop = some t ∧ AfterNumber x.chars text p ∧ ¬ InNumber x.chars text p ∧ ∃ c, text[p]? = some c ∧ c ∈ x.terminating)

section

variable {x : NumIndicator} {sign : Resolved} {w v : Text} {b : Char}

theorem numHere_left (hb : NotNumeric x.chars b) {p : Nat} (hp : p < w.length) (t : Resolved) :
    NumHere x sign (w ++ b :: v) p t ↔ NumHere x sign w p t := by
  unfold NumHere
  rw [digit_left hb (by omega), after_left hb (by omega), number_left hb hp, at_left hp]

theorem numHere_right (hb : NotNumeric x.chars b) (p : Nat) (t : Resolved) :
    NumHere x sign (w ++ b :: v) (w.length + 1 + p) t ↔ NumHere x sign v p t := by
  unfold NumHere
  rw [digit_right, after_right hb, number_right hb, at_right]

theorem numHere_blank (hb : NotNumeric x.chars b) (ht : b ∉ x.terminating) (t : Resolved) :
    ¬ NumHere x sign (w ++ b :: v) w.length t := by
  rintro (⟨-, ⟨c, e, h⟩, -⟩ | ⟨-, -, -, c, e, h⟩)
  · rw [at_blank] at e; cases e; exact hb.digit h
  · rw [at_blank] at e; cases e; exact ht h

end

/-! ## Words that look like contractions -/

section

variable {cl : CharClasses} {lower : Char → List Char} {w v c : Text} {b : Char}

/-- A word standing alone as a line. -/
def aloneRule (c : Text) : TrieRule := ⟨c, [], some wordEdge, some wordEdge, [], .default, .main, ⟨.other, 0⟩⟩

theorem wordHere_iff (text : Text) (i : Nat) :
    WordHere cl lower c text i ↔ RuleMatches cl lower .forward (aloneRule c) (text.drop i) (prevAt text i) := by
  unfold WordHere RuleMatches
  constructor
  · rintro ⟨x, y, e, h1, h2, h3⟩
    exact ⟨x, y, e, h1, fun ks h => by cases h; exact h2, fun ks h => (by cases h; exact h3), fun _ h => (by cases h), fun _ h => by cases h⟩
  · rintro ⟨x, y, e, h1, h2, h3, -, -⟩
    exact ⟨x, y, e, h1, h2 _ rfl, h3 _ rfl⟩

theorem wordHere_left (hb : Blank cl b) (hl : lower b = [b]) (hc : b ∉ c) {p : Nat} (hp : p < w.length) :
    WordHere cl lower c (w ++ b :: v) p ↔ WordHere cl lower c w p := by
  rw [wordHere_iff, wordHere_iff, List.drop_append_of_le_length (by omega), matches_left (d := .forward) hb hl (r := aloneRule c) hc]
  have : prevAt (w ++ b :: v) p = prevAt w p := by
    unfold prevAt
    split
    · rfl
    · exact at_left (by omega)
  rw [this]

theorem wordHere_right (hb : Blank cl b) (p : Nat) : WordHere cl lower c (w ++ b :: v) (w.length + 1 + p) ↔ WordHere cl lower c v p := by
  rw [wordHere_iff, wordHere_iff]
  have e : (w ++ b :: v).drop (w.length + 1 + p) = v.drop p := by
    rw [Nat.add_assoc, List.drop_length_add_append, Nat.add_comm 1 p, List.drop_succ_cons]
  rw [e]
  cases p with
  | zero =>
    have : prevAt (w ++ b :: v) (w.length + 1 + 0) = some b := by
      unfold prevAt
      rw [if_neg (by omega)]
      exact at_blank
    rw [this]
    exact matches_right hb _
  | succ p =>
    have : prevAt (w ++ b :: v) (w.length + 1 + (p + 1)) = prevAt v (p + 1) := by
      unfold prevAt
      rw [if_neg (by omega), if_neg (by omega)]
      exact at_right p
    rw [this]

theorem wordHere_blank (hl : lower b = [b]) (hc : b ∉ c) (hne : c ≠ []) : ¬ WordHere cl lower c (w ++ b :: v) w.length := by
  rintro ⟨x, y, e, hs, -⟩
  rw [List.drop_left] at e
  cases hs with
  | nil => exact hne rfl
  | @cons c' l cs ls h1 h2 =>
    injection e with e _
    subst e
    rw [hl] at h1
    cases h1
    exact hc (by simp)

end

/-! ## Everything together -/

theorem signLast_none {α : Type} {f : Anchored → Option α} {rules : List Anchored} (h : ∀ r ∈ rules, f r = none) :
    latest f rules = none := by
  cases e : latest f rules with
  | none => rfl
  | some a =>
    obtain ⟨r, hr, e'⟩ := latest_of e
    rw [h r hr] at e'
    cases e'

theorem contraction_nonempty {sys : Sys} {ctx : TableCtx} {d : Direction} {rules : List Anchored} {p : Primary}
    (h : MainStage sys ctx d rules p) (hd : d = .forward) : [] ∉ contractionsOf rules := by
  intro hm
  obtain ⟨r, hr, e⟩ := List.mem_filterMap.1 hm
  split at e
  · next cs er =>
    cases e
    have hop : r.insertion [] [] (some wordEdge) (some wordEdge) [] ∈ tableOps ctx d rules := by
      unfold tableOps
      refine List.mem_append_right _ (List.mem_flatMap.2 ⟨r, hr, ?_⟩)
      unfold Anchored.opsD Anchored.ops
      rw [er]
      exact List.mem_singleton.2 rfl
    have hno : r.rule.isNocross = false := by rw [er]; rfl
    have : (⟨[], [], some wordEdge, some wordEdge, [], r.rule.prec, .main, r.origin⟩ : TrieRule) ∈ trieRules d (tableOps ctx d rules) := by
      refine List.mem_filterMap.2 ⟨_, hop, ?_⟩
      unfold Anchored.insertion
      rw [hno]
    exact h.built.ok.trie.nonempty _ this (by subst hd; rfl)
  · cases e

/-- Signs at each place, of a text and of its parts. -/
structure SignsSplit (w v : Text) (s sw sb sv : Nat → List Resolved) : Prop where
  left : ∀ p < w.length, s p = sw p
  blank : s w.length = []
  ends : sw w.length = []
  b0 : sb 0 = []
  b1 : sb 1 = []
  right : ∀ p, s (w.length + 1 + p) = sv p

theorem atPos_later (n p : Nat) (l : List (Nat × Resolved)) : atPos (n + p) (later n l) = atPos p l := by
  induction l with
  | nil => rfl
  | cons q l ih =>
    simp only [atPos, later, List.map_cons, List.filter_cons] at ih ⊢
    by_cases h : q.1 = p
    · have : n + q.1 = n + p := by omega
      simp only [h, beq_self_eq_true, if_true, List.map_cons, ih]
    · have : ¬ n + q.1 = n + p := by omega
      simp only [beq_iff_eq, h, this, if_false, ih]

theorem atPos_none {p : Nat} {l : List (Nat × Resolved)} (h : ∀ q ∈ l, q.1 ≠ p) : atPos p l = [] := by
  unfold atPos
  rw [List.map_eq_nil_iff, List.filter_eq_nil_iff]
  intro q hq
  simpa using h q hq

theorem atPos_split {n : Nat} {l l₁ l₂ : List (Nat × Resolved)} (h : l = l₁ ++ later (n + 1) l₂) (hb : ∀ q ∈ l₁, q.1 < n) :
    (∀ p < n, atPos p l = atPos p l₁) ∧ atPos n l = [] ∧ atPos n l₁ = [] ∧ ∀ p, atPos (n + 1 + p) l = atPos p l₂ := by
  have hl : ∀ q ∈ later (n + 1) l₂, n < q.1 := by
    intro q hq
    obtain ⟨a, -, rfl⟩ := List.mem_map.1 hq
    simp only
    omega
  subst h
  refine ⟨fun p hp => ?_, ?_, ?_, fun p => ?_⟩
  · rw [atPos_append, atPos_none (l := later _ _) fun q hq => by have := hl q hq; omega, List.append_nil]
  · rw [atPos_append, atPos_none (l := later _ _) fun q hq => by have := hl q hq; omega,
      atPos_none fun q hq => by have := hb q hq; omega]; rfl
  · exact atPos_none fun q hq => by have := hb q hq; omega
  · rw [atPos_append, atPos_later, atPos_none fun q hq => by have := hb q hq; omega]; rfl

section

variable {sys : Sys} {ctx : TableCtx} {rules : List Anchored} {p : Primary} {lower : Char → List Char} {b : Char}

/-- What is left of the signs, for a table of lines about words and a text without spans. -/
theorem signs_plain (hw : ∀ r ∈ rules, r.rule.WithinWords b) {text : Text} {comp emph num letters caps noc : List (Nat × Resolved)}
    (h : TableSigns ctx lower rules text [] comp emph num letters caps noc) (pos : Nat) :
    atPos pos (comp ++ emph ++ num ++ letters ++ caps ++ noc) = atPos pos num ++ atPos pos caps ++ atPos pos noc := by
  have e1 : atPos pos comp = [] := by
    have := h.comp
    split at this
    · rw [this]; rfl
    · rw [this pos]; rfl
  have e2 : emph = [] := by
    obtain ⟨g, h1, h2⟩ := h.emph
    have : ∀ (l : List EmphClass), (∀ x ∈ l, ClassSigns x text [] (g x)) → l.flatMap g = [] := by
      intro l hl
      rw [List.flatMap_eq_nil_iff]
      intro x hx
      obtain ⟨runs, f, r1, -, -, e⟩ := hl x hx
      have : runs = [] := by
        rw [List.eq_nil_iff_forall_not_mem]
        intro r hr
        have hs := (r1 r).1 hr
        have := (hs.all r.1 (Nat.le_refl _) hs.nonempty).1
        obtain ⟨-, s, hs, -⟩ := this
        cases hs
      rw [e, this]
      rfl
    rw [this _ h1] at h2
    exact List.Perm.eq_nil h2
  have e3 : letters = [] := by
    have := h.letters
    have hn : lastDots (fun | .letsign dots => some dots | _ => none) rules = none := by
      refine signLast_none fun r hr => ?_
      have := hw r hr
      cases e : r.rule <;> first | rfl | (rw [e] at this; exact this.elim)
    generalize hg : lastDots _ rules = o at this
    rw [show o = none from hg.symm.trans hn] at this
    exact this
  rw [e2, e3]
  simp only [List.append_nil, atPos_append, e1, List.nil_append]

theorem caps_config (hw : ∀ r ∈ rules, r.rule.WithinWords b) (hb : Blank ctx.classes b) :
    (capsConfig ctx.classes rules).begcaps = none ∧ (capsConfig ctx.classes rules).begcapsphrase = none ∧
      (capsConfig ctx.classes rules).isWordChar b = false := by
  refine ⟨?_, ?_, ?_⟩
  · refine signLast_none fun r hr => ?_
    have := hw r hr
    cases e : r.rule <;> first | rfl | (rw [e] at this; exact this.elim)
  · refine signLast_none fun r hr => ?_
    have := hw r hr
    cases e : r.rule <;> first | rfl | (rw [e] at this; exact this.elim)
  · have h1 : b ∉ (capsConfig ctx.classes rules).letters := blank_members hb (by decide)
    have h2 : b ∉ (capsConfig ctx.classes rules).modeChars := by
      refine lastArg_free fun r hr cs e => ?_
      have := hw r hr
      split at e
      · next e' => rw [e'] at this; cases e; exact this
      · cases e
    unfold CapIndicator.isWordChar
    simp [h1, h2]

/-- **C75**, signs. -/
theorem signs_split (hm : MainStage sys ctx .forward rules p) (hw : ∀ r ∈ rules, r.rule.WithinWords b) (hb : Blank ctx.classes b)
    (hl : lower b = [b]) {w v : Text} {ps pw pb pv : List (Nat × Resolved)}
    (h : p.indicators.pairs lower (w ++ b :: v) [] = .ok ps) (h1 : p.indicators.pairs lower w [] = .ok pw)
    (h2 : p.indicators.pairs lower [b] [] = .ok pb) (h3 : p.indicators.pairs lower v [] = .ok pv) :
    SignsSplit w v (fun i => atPos i ps) (fun i => atPos i pw) (fun i => atPos i pb) fun i => atPos i pv := by
  obtain ⟨c, e, n, l, ca, no, rfl, t⟩ := table_signs hm lower _ _ _ h
  obtain ⟨c1, e1, n1, l1, ca1, no1, rfl, t1⟩ := table_signs hm lower _ _ _ h1
  obtain ⟨c2, e2, n2, l2, ca2, no2, rfl, t2⟩ := table_signs hm lower _ _ _ h2
  obtain ⟨c3, e3, n3, l3, ca3, no3, rfl, t3⟩ := table_signs hm lower _ _ _ h3
  have num : (n = n1 ++ later (w.length + 1) n3 ∧ ∀ q ∈ n1, q.1 < w.length) ∧ n2 = [] := by
    have a := t.num
    have a1 := t1.num
    have a2 := t2.num
    have a3 := t3.num
    split at a
    · next hs =>
      rw [hs] at a1 a2 a3
      subst a a1 a2 a3
      exact ⟨⟨rfl, by simp⟩, rfl⟩
    · next sign hs =>
      rw [hs] at a1 a2 a3
      have nn := notNumeric_table hb hw
      have nt := terminating_free (cl := ctx.classes) hw
      have k : Placed (w ++ b :: v) (NumHere (numConfig ctx.classes rules) sign (w ++ b :: v)) n := ⟨a.1, a.2⟩
      have k1 : Placed w (NumHere (numConfig ctx.classes rules) sign w) n1 := ⟨a1.1, a1.2⟩
      have k2 : Placed [b] (NumHere (numConfig ctx.classes rules) sign [b]) n2 := ⟨a2.1, a2.2⟩
      have k3 : Placed v (NumHere (numConfig ctx.classes rules) sign v) n3 := ⟨a3.1, a3.2⟩
      exact ⟨⟨placed_split k k1 k3 (fun p hp t => numHere_left nn hp t) (fun t => numHere_blank nn nt t)
        fun p _ t => numHere_right nn p t, k1.bound⟩, placed_none k2 fun t => numHere_blank (w := []) (v := []) nn nt t⟩
  have noc : (no = no1 ++ later (w.length + 1) no3 ∧ ∀ q ∈ no1, q.1 < w.length) ∧ no2 = [] := by
    have a := t.noc
    have a1 := t1.noc
    have a2 := t2.noc
    have a3 := t3.noc
    split at a
    · next hs =>
      rw [hs] at a1 a2 a3
      subst a a1 a2 a3
      exact ⟨⟨rfl, by simp⟩, rfl⟩
    · next dots origin hs =>
      rw [hs] at a1 a2 a3
      have free : ∀ c ∈ contractionsOf rules, b ∉ c := by
        intro c hc
        obtain ⟨r, hr, e⟩ := List.mem_filterMap.1 hc
        have := hw r hr
        split at e
        · next e' => rw [e'] at this; cases e; exact this
        · cases e
      have full : ∀ c ∈ contractionsOf rules, c ≠ [] := by
        rintro c hc rfl
        exact contraction_nonempty hm rfl hc
      have mk : ∀ {text : Text} {l : List (Nat × Resolved)}, (l.Pairwise (fun a b => a.1 < b.1) ∧ ∀ p t, (p, t) ∈ l ↔ t = indication dots origin ∧
          p < text.length ∧ ∃ w ∈ contractionsOf rules, WordHere ctx.classes lower w text p) →
          Placed text (fun p t => t = indication dots origin ∧ ∃ w ∈ contractionsOf rules, WordHere ctx.classes lower w text p) l := by
        intro text l h
        exact ⟨h.1, fun p t => (h.2 p t).trans ⟨fun ⟨a, b, c⟩ => ⟨b, a, c⟩, fun ⟨a, b, c⟩ => ⟨b, a, c⟩⟩⟩
      refine ⟨⟨placed_split (mk a) (mk a1) (mk a3) ?_ ?_ ?_, (mk a1).bound⟩, placed_none (mk a2) ?_⟩
      · intro q hq t
        refine and_congr_right fun _ => exists_congr fun c => and_congr_right fun hc => wordHere_left hb hl (free c hc) hq
      · rintro t ⟨-, c, hc, h⟩
        exact wordHere_blank hl (free c hc) (full c hc) h
      · intro q hq t
        exact and_congr_right fun _ => exists_congr fun c => and_congr_right fun hc => wordHere_right hb q
      · rintro t ⟨-, c, hc, h⟩
        exact wordHere_blank (w := []) (v := []) hl (free c hc) (full c hc) h
  have caps : (ca = ca1 ++ later (w.length + 1) ca3 ∧ ∀ q ∈ ca1, q.1 < w.length) ∧ ca2 = [] := by
    have a := t.caps
    have a1 := t1.caps
    have a2 := t2.caps
    have a3 := t3.caps
    obtain ⟨x1, x2, x3⟩ := caps_config (ctx := ctx) hw hb
    dsimp only at a a1 a2 a3
    split at a
    · next hs =>
      rw [if_pos hs] at a1 a2 a3
      subst a a1 a2 a3
      exact ⟨⟨rfl, by simp⟩, rfl⟩
    · next hs =>
      rw [if_neg hs] at a1 a2 a3
      exact ⟨caps_split x3 x1 x2 a a1 a3, caps_blank x3 x1 x2 a2⟩
  obtain ⟨⟨nu, nb⟩, rfl⟩ := num
  obtain ⟨⟨ou, ob⟩, rfl⟩ := noc
  obtain ⟨⟨cu, cb⟩, rfl⟩ := caps
  obtain ⟨na, nb, nc, nd⟩ := atPos_split nu nb
  obtain ⟨oa, ob, oc, od⟩ := atPos_split ou ob
  obtain ⟨ka, kb, kc, kd⟩ := atPos_split cu cb
  constructor
  · intro i hi
    simp only [signs_plain hw t, signs_plain hw t1]
    rw [na i hi, oa i hi, ka i hi]
  · simp only [signs_plain hw t]
    rw [nb, ob, kb]; rfl
  · simp only [signs_plain hw t1]
    rw [nc, oc, kc]; rfl
  · simp only [signs_plain hw t2]; rfl
  · simp only [signs_plain hw t2]; rfl
  · intro i
    simp only [signs_plain hw t, signs_plain hw t3]
    rw [nd, od, kd]

end

end Louis
