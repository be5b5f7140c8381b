import Verif.Lemmas.Signs
import Verif.Lemmas.Exec
import Verif.Lemmas.Primary
import Verif.Props.Hyphenation
import Verif.Props.Backward
import Verif.Spec.Explain

/-!
# What a compiled table consists of
-/

namespace Louis

open Regexp (Fault)

/-! ## The operations -/

theorem primApplyAll_append {ctx : PrimCtx} : ∀ (a b : List PrimOp) (t t' t'' : PrimaryTable),
    PrimaryTable.applyAll ctx a t = .ok t' → PrimaryTable.applyAll ctx b t' = .ok t'' →
    PrimaryTable.applyAll ctx (a ++ b) t = .ok t''
  | [], b, t, t', t'', h, h' => by cases h; exact h'
  | op :: a, b, t, t', t'', h, h' => by
    rw [List.cons_append]
    unfold PrimaryTable.applyAll at h ⊢
    split at h
    · cases h
    · exact primApplyAll_append a b _ t' t'' h h'

/-- The operations of one rule in the second loop. -/
def Anchored.opsD (ctx : TableCtx) (d : Direction) (litdigits : List Char) (letterDots : List Text) (r : Anchored) : List PrimOp :=
  (okOf (r.ops ctx d litdigits letterDots)).getD []

/-- All operations of the rules of a table. -/
def tableOps (ctx : TableCtx) (d : Direction) (rules : List Anchored) : List PrimOp :=
  rules.flatMap (·.firstOps) ++ rules.flatMap fun r => r.opsD ctx d (litdigitChars d rules) (letterDotsOf d rules)

/-- The signs and constrainers in the second loop. -/
def signsLoop (sys : Sys) (classes : CharClasses) (d : Direction) (letterDots : List Text) :
    List Anchored → Signs → Except CompileErr Signs
  | [], s => .ok s
  | r :: rs, s =>
    match (s.step classes d letterDots r).hyphenate sys r with
    | .error e => .error e
    | .ok s => signsLoop sys classes d letterDots rs s

theorem firstLoop_ok {ctx : TableCtx} {d : Direction} : ∀ {rules : List Anchored} {t t' : PrimaryTable} {s s' : Signs},
    firstLoop ctx d rules (t, s) = .ok (t', s') →
    PrimaryTable.applyAll (ctx.prim d) (rules.flatMap (·.firstOps)) t = .ok t' ∧ s' = rules.foldl Signs.first s
  | [], t, t', s, s', h => by cases h; exact ⟨rfl, rfl⟩
  | r :: rs, t, t', s, s', h => by
    unfold firstLoop at h
    split at h
    · cases h
    · rename_i t₁ h₁
      obtain ⟨a, b⟩ := firstLoop_ok h
      exact ⟨primApplyAll_append _ _ _ _ _ h₁ a, b⟩

theorem secondLoop_ok {sys : Sys} {ctx : TableCtx} {d : Direction} {L : List Char} {D : List Text} :
    ∀ {rules : List Anchored} {t t' : PrimaryTable} {s s' : Signs},
    secondLoop sys ctx d L D rules (t, s) = .ok (t', s') →
    (∀ r ∈ rules, ∃ ops, r.ops ctx d L D = .ok ops) ∧
    PrimaryTable.applyAll (ctx.prim d) (rules.flatMap (·.opsD ctx d L D)) t = .ok t' ∧
    signsLoop sys ctx.classes d D rules s = .ok s'
  | [], t, t', s, s', h => by cases h; exact ⟨by simp, rfl, rfl⟩
  | r :: rs, t, t', s, s', h => by
    unfold secondLoop at h
    split at h
    · cases h
    · rename_i ops hops
      split at h
      · cases h
      · rename_i t₁ h₁
        split at h
        · cases h
        · rename_i s₁ hs
          obtain ⟨a, b, c⟩ := secondLoop_ok h
          refine ⟨?_, ?_, ?_⟩
          · intro q hq
            rcases List.mem_cons.mp hq with rfl | hq
            · exact ⟨ops, hops⟩
            · exact a q hq
          · rw [List.flatMap_cons]
            refine primApplyAll_append _ _ _ _ _ ?_ b
            unfold Anchored.opsD
            rw [hops]
            exact h₁
          · unfold signsLoop
            rw [hs]
            exact c

/-- The parts of a compiled main stage. -/
structure MainParts (sys : Sys) (ctx : TableCtx) (d : Direction) (rules : List Anchored) (p : Primary) : Prop where
  ops : ∀ r ∈ rules, ∃ ops, r.ops ctx d (litdigitChars d rules) (letterDotsOf d rules) = .ok ops
  table : PrimaryTable.applyAll (ctx.prim d) (tableOps ctx d rules) (PrimaryTable.new d (ctx.prim d)) = .ok p.table
  signs : ∃ s, signsLoop sys ctx.classes d (letterDotsOf d rules) rules (rules.foldl Signs.first Signs.new) = .ok s ∧
    (s.finish sys ctx d rules).indicators ctx = .ok p.indicators ∧
    p.constrainers = (s.finish sys ctx d rules).constrainers ctx d ∧ p.triggers = s.triggers
  classes : p.classes = ctx.classes

theorem compile_compiled {sys : Sys} {ctx : TableCtx} {d : Direction} {rules : List Anchored} {p : Primary}
    (h : Primary.compile sys ctx d rules = .ok p) : MainParts sys ctx d rules p := by
  unfold Primary.compile at h
  split at h
  · cases h
  · rename_i s₁ h₁
    obtain ⟨t₁, s₁⟩ := s₁
    obtain ⟨a, b⟩ := firstLoop_ok h₁
    split at h
    · cases h
    · rename_i t s h₂
      obtain ⟨c, e, f⟩ := secondLoop_ok h₂
      simp only at h
      split at h
      · cases h
      · rename_i ind hi
        injection h with h
        subst h
        subst b
        exact ⟨c, primApplyAll_append _ _ _ _ _ a e, ⟨s, f, hi, rfl, rfl⟩, rfl⟩

/-! ## The signs -/

/-- A sign that some rule of the table defines. -/
def SignOf (rules : List Anchored) (t : Resolved) : Prop :=
  ∃ r ∈ rules, ∃ dots, r.rule.sign? = some dots ∧ t = indication dots.toText r.origin

theorem hyphenate_ok {sys : Sys} {s s' : Signs} {r : Anchored} (h : s.hyphenate sys r = .ok s') :
    s' = { s with hyphenator := s'.hyphenator } ∧ (s'.hyphenator = s.hyphenator ∨
      ∃ path lines h, r.rule = .includeHyphenation path ∧ sys.dic path = some lines ∧ parseDic lines = .ok h ∧ s'.hyphenator = some h) := by
  unfold Signs.hyphenate at h
  split at h
  · rename_i path hr
    split at h
    · cases h
    · rename_i lines hl
      split at h
      · cases h
      · rename_i hy hd
        cases h
        exact ⟨rfl, Or.inr ⟨path, lines, hy, hr, hl, hd, rfl⟩⟩
  · cases h
    exact ⟨rfl, Or.inl rfl⟩

theorem signsLoop_all {sys : Sys} {classes : CharClasses} {d : Direction} {D : List Text} : ∀ {rules : List Anchored} {s s' : Signs},
    signsLoop sys classes d D rules s = .ok s' → ∀ t ∈ s'.all, t ∈ s.all ∨ SignOf rules t
  | [], s, s', h, t, ht => by cases h; exact Or.inl ht
  | r :: rs, s, s', h, t, ht => by
    unfold signsLoop at h
    split at h
    · cases h
    · rename_i s₁ hs
      rcases signsLoop_all h t ht with ht | ⟨q, hq, x⟩
      · have : t ∈ (s.step classes d D r).all := by
          rw [(hyphenate_ok hs).1] at ht
          exact ht
        rcases step_signs _ _ _ _ _ _ this with h | ⟨dots, h1, h2⟩
        · exact Or.inl h
        · exact Or.inr ⟨r, List.mem_cons_self .., dots, h1, h2⟩
      · exact Or.inr ⟨q, List.mem_cons_of_mem _ hq, x⟩

theorem first_all : ∀ (rules : List Anchored) (s : Signs), (rules.foldl Signs.first s).all = s.all
  | [], _ => rfl
  | r :: rs, s => by
    rw [List.foldl_cons, first_all rs]
    unfold Signs.first
    split <;> rfl

theorem finish_all (sys : Sys) (ctx : TableCtx) (d : Direction) (rules : List Anchored) (s : Signs) :
    (s.finish sys ctx d rules).all = s.all := by
  unfold Signs.all Signs.finish
  congr 1
  simp only [List.flatMap_map]
  rfl

theorem indicators_signs {ctx : TableCtx} {s : Signs} {i : Indicators} (h : s.indicators ctx = .ok i) :
    ∀ t ∈ i.signs, t ∈ s.all := by
  unfold Signs.indicators at h
  split at h
  · cases h
  · rename_i letsign hl
    split at h
    · cases h
    · rename_i noc hn
      injection h with h
      subst h
      intro t ht
      unfold Indicators.signs at ht
      simp only [List.mem_append] at ht
      rw [mem_all]
      rcases ht with ((((ht | ht) | ht) | ht) | ht) | ht
      · cases e : s.begcomp with
        | none => rw [e] at ht; cases ht
        | some b =>
          rw [e] at ht
          simp only [Option.map_some, List.mem_cons, Option.mem_toList, Option.mem_def] at ht
          rcases ht with rfl | ht
          · simp
          · simp [ht]
      · right
        rw [List.mem_flatMap] at ht ⊢
        obtain ⟨x, hx, h⟩ := ht
        exact ⟨x, (List.mem_filter.mp hx).1, h⟩
      · split at ht
        · rename_i c hc
          split at hc
          · injection hc with hc
            subst hc
            simp only [List.mem_append, Option.mem_toList, Option.mem_def] at ht
            grind
          · cases hc
        · cases ht
      · split at ht
        · rename_i c hc
          unfold Signs.letIndicator at hl
          split at hl
          · cases hl
          · rename_i dots origin hs
            split at hl
            · cases hl
            · cases hl
              simp only [List.mem_singleton] at ht
              subst ht
              simp [hs]
        · cases ht
      · split at ht
        · rename_i c hc
          split at hc
          · injection hc with hc
            subst hc
            simp [ht]
          · cases hc
        · cases ht
      · split at ht
        · rename_i c hc
          unfold Signs.nocIndicator at hn
          split at hn
          · cases hn
          · rename_i dots origin hs
            split at hn
            · cases hn
            · split at hn
              · cases hn
              · cases hn
                simp only [List.mem_singleton] at ht
                subst ht
                simp [hs]
        · cases ht

/-- Every sign of a compiled table is defined by one of its rules. -/
theorem MainParts.signs_from_rules {sys : Sys} {ctx : TableCtx} {d : Direction} {rules : List Anchored} {p : Primary}
    (h : MainParts sys ctx d rules p) : ∀ t ∈ p.indicators.signs, SignOf rules t := by
  obtain ⟨s, h1, h2, -, -⟩ := h.signs
  intro t ht
  have := indicators_signs h2 t ht
  rw [finish_all] at this
  rcases signsLoop_all h1 t this with h | h
  · rw [first_all] at h
    cases h
  · exact h

/-! ## The constrainers are well-formed -/

/-- What the second loop establishes about the signs known to the constrainers. -/
structure DotsOk (s : Signs) : Prop where
  caps : s.capsDots.Wf
  num : s.numDots.Wf
  hyph : ∀ h, s.hyphenator = some h → h.Wf

/-- The dots of a registered sign are not empty. -/
def BackOk (d : Direction) (D : List Text) (r : Anchored) : Prop :=
  ∀ dots, r.rule.backSign? = some dots → d = .backward → D.contains dots.toText = false → dots.toText ≠ []

theorem step_dots {classes : CharClasses} {d : Direction} {D : List Text} {s : Signs} {r : Anchored} (hr : BackOk d D r)
    (h : DotsOk s) : DotsOk (s.step classes d D r) := by
  obtain ⟨⟨h1, h2⟩, ⟨h3, h4⟩, h5⟩ := h
  obtain ⟨rule, id⟩ := r
  unfold BackOk at hr
  have key : ∀ dots : Cells, rule.backSign? = some dots → (d == .backward && !D.contains dots.toText) = true →
      dots.toText ≠ [] := by
    intro dots h1 h2
    simp only [Bool.and_eq_true, beq_iff_eq, Bool.not_eq_true'] at h2
    exact hr dots h1 h2.1 h2.2
  cases rule
  case numsign dots =>
    refine ⟨⟨h1, h2⟩, ?_, h5⟩
    simp only [Signs.step]
    split
    · rename_i h
      exact ⟨fun e => key dots rfl h (by injection e), h4⟩
    · exact ⟨h3, h4⟩
  case nonumsign dots _ =>
    refine ⟨⟨h1, h2⟩, ?_, h5⟩
    simp only [Signs.step]
    split
    · rename_i h
      exact ⟨h3, fun e => key dots rfl h (by injection e)⟩
    · exact ⟨h3, h4⟩
  case capsletter dots _ =>
    refine ⟨?_, ⟨h3, h4⟩, h5⟩
    simp only [Signs.step]
    split
    · rename_i h
      exact ⟨fun e => key dots rfl h (by injection e), h2⟩
    · exact ⟨h1, h2⟩
  case begcapsword dots _ =>
    refine ⟨?_, ⟨h3, h4⟩, h5⟩
    simp only [Signs.step]
    split
    · rename_i h
      exact ⟨h1, fun e => key dots rfl h (by injection e)⟩
    · exact ⟨h1, h2⟩
  case endcapsword dots _ =>
    refine ⟨?_, ⟨h3, h4⟩, h5⟩
    simp only [Signs.step]
    split
    · exact ⟨h1, h2⟩
    · exact ⟨h1, h2⟩
  all_goals exact ⟨⟨h1, h2⟩, ⟨h3, h4⟩, h5⟩

theorem signsLoop_dots {sys : Sys} {classes : CharClasses} {d : Direction} {D : List Text} : ∀ {rules : List Anchored} {s s' : Signs},
    (∀ r ∈ rules, BackOk d D r) → signsLoop sys classes d D rules s = .ok s' → DotsOk s → DotsOk s'
  | [], s, s', _, h, hs => by cases h; exact hs
  | r :: rs, s, s', hr, h, hs => by
    unfold signsLoop at h
    split at h
    · cases h
    · rename_i s₁ h₁
      apply signsLoop_dots (fun q hq => hr q (List.mem_cons_of_mem _ hq)) h
      have hs' := step_dots (classes := classes) (hr r (List.mem_cons_self ..)) hs
      obtain ⟨e1, e2⟩ := hyphenate_ok h₁
      rw [e1]
      refine ⟨hs'.caps, hs'.num, ?_⟩
      intro h hh
      rcases e2 with e2 | ⟨path, lines, hy, -, -, h4, h5⟩
      · rw [e2] at hh
        exact hs'.hyph h hh
      · rw [h5] at hh
        injection hh with hh
        subst hh
        exact C24_accepted_file_wf lines hy h4

theorem first_dots : ∀ (rules : List Anchored) (s : Signs), DotsOk s → DotsOk (rules.foldl Signs.first s)
  | [], _, h => h
  | r :: rs, s, h => by
    rw [List.foldl_cons]
    apply first_dots rs
    unfold Signs.first
    split
    · exact ⟨h.caps, h.num, h.hyph⟩
    · exact h

theorem insertAll_from {ctx : CharClasses} {d : Direction} : ∀ {rs : List TrieRule} {t t' : Trie},
    Trie.insertAll ctx d rs t = some t' → ∀ r ∈ rs, r.from d ≠ []
  | [], _, _, _, r, hr => by cases hr
  | q :: rs, t, t', h, r, hr => by
    unfold Trie.insertAll at h
    cases e : Trie.insert ctx d q t with
    | none => rw [e] at h; cases h
    | some t₁ =>
      rw [e] at h
      rcases List.mem_cons.mp hr with rfl | hr
      · intro hf
        unfold Trie.insert at e
        rw [if_pos hf] at e
        cases e
      · exact insertAll_from h r hr

theorem MainParts.back_ok {sys : Sys} {ctx : TableCtx} {d : Direction} {rules : List Anchored} {p : Primary}
    (h : MainParts sys ctx d rules p) : ∀ r ∈ rules, BackOk d (letterDotsOf d rules) r := by
  intro r hr dots hd hb hc
  have inv := buildInv_all (buildInv_new (ctx.prim d) d) h.table
  rw [List.nil_append] at inv
  have hm : PrimOp.rule false ⟨[], dots.toText, none, none, [], r.rule.prec, .main, r.origin⟩ ∈ tableOps ctx d rules := by
    unfold tableOps
    apply List.mem_append_right
    rw [List.mem_flatMap]
    refine ⟨r, hr, ?_⟩
    have hops : r.ops ctx d (litdigitChars d rules) (letterDotsOf d rules) = .ok (r.signOps d (letterDotsOf d rules) dots) := by
      obtain ⟨rule, id⟩ := r
      cases rule <;> simp only [Rule.backSign?, Option.some.injEq, reduceCtorEq] at hd
      all_goals subst hd; rfl
    unfold Anchored.opsD
    rw [hops]
    subst hb
    simp only [okOf, Option.getD_some, Anchored.signOps, hc]
    simp
  have := insertAll_from inv.trie ⟨[], dots.toText, none, none, [], r.rule.prec, .main, r.origin⟩
    (List.mem_filterMap.mpr ⟨_, hm, rfl⟩)
  subst hb
  exact this

theorem MainParts.constrainers_ok {sys : Sys} {ctx : TableCtx} {d : Direction} {rules : List Anchored} {p : Primary}
    (h : MainParts sys ctx d rules p) : (∀ c, p.constrainers.caps = some c → c.Wf) ∧
      (∀ c, p.constrainers.backNumeric = some c → c.Wf) ∧ ∀ x, p.constrainers.hyphenation = some x → x.1.Wf := by
  obtain ⟨s, h1, -, h3, -⟩ := h.signs
  have hs := signsLoop_dots h.back_ok h1 (first_dots rules Signs.new ⟨⟨nofun, nofun⟩, ⟨nofun, nofun⟩, nofun⟩)
  rw [h3]
  refine ⟨?_, ?_, ?_⟩
  · intro c hc
    simp only [Signs.constrainers] at hc
    split at hc
    · cases hc
    · injection hc with hc
      subst hc
      exact ⟨hs.caps.1, hs.caps.2⟩
  · intro c hc
    simp only [Signs.constrainers] at hc
    split at hc
    · cases hc
    · injection hc with hc
      subst hc
      exact ⟨hs.num.1, hs.num.2⟩
  · intro x hx
    simp only [Signs.constrainers] at hx
    split at hx
    · obtain ⟨h, hh, rfl⟩ := Option.map_eq_some_iff.mp hx
      exact hs.hyph h hh
    · cases hx

end Louis
