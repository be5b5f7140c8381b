import Verif.Spec.Stage
import Verif.Props.Passes
import Verif.Props.RulesTrace

/-!
# C72: what a multipass stage does, exactly
-/

namespace Louis

open Regexp (findAnchored utf8Len utf8Len_append)

/-- The lines used in a direction.  (Backward only those that write something of their own.) -/
def usedLines (d : Direction) (rules : List PassRule) : List PassRule :=
  rules.filter fun r => !(d == .backward && !r.action.any (·.consumesInput))

/-- The lines are such as can be written in a table. -/
structure PassRule.Written (r : PassRule) : Prop where
  test : TestsWritten r.test
  action : NoStep r.action

theorem writes_eq {swaps : SwapClasses} {y : Text} : ∀ {as : List ActionInstr} {out : Text}, Writes swaps y as out →
    out = as.flatMap (actionText swaps y) := by
  intro as out h
  induction h with
  | nil => rfl
  | swap n s as out hs _ ih => simp [actionText, hs, ih]
  | _ => simp_all [actionText]

theorem asks_eq : ∀ {as : List ActionInstr} {es : List Effect}, NoStep as → Asks as es → es = as.filterMap settingOf := by
  intro as es hn h
  induction h with
  | nil => rfl
  | increment v as es _ _ => exact absurd rfl (hn _ (List.mem_cons_self ..) v).1
  | decrement v as es _ _ => exact absurd rfl (hn _ (List.mem_cons_self ..) v).2
  | _ => rename_i ih; have := ih (fun b hb => hn b (List.mem_cons_of_mem _ hb)); subst this; rfl

theorem find_offers {classes : CharClasses} {swaps : SwapClasses} {d : Direction} {stage : Stage} (lower : Char → List Char)
    (text : Text) (env : Env) (atStart : Bool) : ∀ {rules : List PassRule} {ps : List (Regexp.Compiled Translation)},
    compilePass classes swaps d stage rules = .ok ps → (∀ r ∈ rules, r.Written) →
    patternsFind ps lower text env atStart =
      .ok ((usedLines d rules).filterMap (PassTable.offer ⟨classes, swaps, stage, usedLines d rules⟩ env atStart text)) := by
  intro rules
  have irr : ∀ l l' : List PassRule, PassTable.offer ⟨classes, swaps, stage, l⟩ = PassTable.offer ⟨classes, swaps, stage, l'⟩ :=
    fun _ _ => rfl
  induction rules with
  | nil => intro ps h _; simp only [compilePass, Except.ok.injEq] at h; subst h; rfl
  | cons r rs ih =>
    intro ps h hw
    simp only [compilePass] at h
    have hws : ∀ r ∈ rs, r.Written := fun x hx => hw x (List.mem_cons_of_mem _ hx)
    split at h
    · next hd =>
      have : usedLines d (r :: rs) = usedLines d rs := by
        rw [usedLines, List.filter_cons_of_neg]; rfl
        obtain ⟨h1, h2⟩ := hd
        subst h1
        simpa using h2
      rw [this]
      exact ih h hws
    · next hd =>
      have : usedLines d (r :: rs) = r :: usedLines d rs := by
        rw [usedLines, List.filter_cons_of_pos]; rfl
        cases d <;> simp_all
      rw [this]
      split at h
      · cases h
      · next q hq =>
        split at h
        · cases h
        · next qs hqs =>
          cases h
          have hw1 := hw r (List.mem_cons_self ..)
          have h71 := C71_line_exact classes swaps stage .default r.origin r.test r.action q hq hw1.test hw1.action lower text env
            atStart
          have ih' := ih hqs hws
          rw [irr (usedLines d rs) (r :: usedLines d rs)] at ih'
          rw [List.filterMap_cons]
          simp only [patternsFind, ih']
          cases hs : stretchOf classes env atStart r.test text with
          | none =>
            rw [hs] at h71
            simp only [h71, PassTable.offer, hs, Option.map_none]
          | some st =>
            rw [hs] at h71
            obtain ⟨f, out, es, h1, h2, h3, h4⟩ := h71
            simp only [h1, PassTable.offer, hs, Option.map_some, h4, ← writes_eq h2, ← asks_eq hw1.action h3, List.length_append]

/-! ## The state of the loop, from the trace -/

/-- What is held after the items. -/
def heldOf (offers : List Resolved → List Resolved) (items : List Resolved) : List Resolved :=
  (List.range items.length).flatMap fun i =>
    ((offers (items.take i)).filter fun o =>
      o.offset != 0 && decide ((dealtWith items).length + (if arrived items then 0 else 1) ≤ (dealtWith (items.take i)).length + o.offset)).map
      fun o => { o with offset := (dealtWith (items.take i)).length + o.offset - (dealtWith items).length }

/-- The state of the loop is determined by the items written so far. -/
structure Reflects (T : PassTable) (input : Text) (s : MpState) : Prop where
  rest : s.rest = input.drop (dealtWith s.out).length
  env : s.env = settings s.out
  seen : s.seen = spent s.out
  delayed : s.delayed = heldOf (T.offers input) s.out

theorem heaviest_append (l : List Resolved) (o : Resolved) : heaviest (l ++ [o]) = match heaviest l with
    | none => some o
    | some b => if b.weight ≤ o.weight then some o else some b := by
  induction l with
  | nil => rfl
  | cons a l ih =>
    simp only [List.cons_append, heaviest, ih]
    cases h : heaviest l with
    | none => rfl
    | some u =>
      simp only
      by_cases h1 : u.weight ≤ o.weight <;> by_cases h2 : a.weight ≤ u.weight <;> by_cases h3 : a.weight ≤ o.weight <;>
        simp [h1, h2, h3] <;> omega

theorem lastHeaviest_eq (l : List Resolved) : lastHeaviest l = heaviest l := by
  suffices ∀ (n : Nat) (l : List Resolved), l.length = n → lastHeaviest l = heaviest l from this _ l rfl
  intro n
  induction n with
  | zero => intro l h; rw [List.length_eq_zero_iff.1 h]; rfl
  | succ n ih =>
    intro l h
    rcases List.eq_nil_or_concat l with rfl | ⟨u, y, rfl⟩
    · rfl
    · rw [List.concat_eq_append] at h ⊢
      rw [heaviest_append, ← ih u (by simpa using h), lastHeaviest, List.foldl_append]
      rfl

theorem settings_append (items : List Resolved) (c : Resolved) (v : Nat) : settings (items ++ [c]) v =
    c.effects.foldl (updated v) (settings items v) := by
  simp [settings, List.foldl_append]

theorem applyAll_settings : ∀ (es : List Effect) (env : Env), (∀ e ∈ es, ∃ x, e.kind = .set x) →
    env.applyAll es = .ok fun v => es.foldl (updated v) (env v)
  | [], env, _ => rfl
  | e :: es, env, h => by
    obtain ⟨x, hx⟩ := h e (List.mem_cons_self ..)
    simp only [Env.applyAll, Env.apply, hx, applyAll_settings es _ fun a ha => h a (List.mem_cons_of_mem _ ha), List.foldl_cons,
      Env.put, updated]

theorem offer_effects {T : PassTable} {env : Env} {atStart : Bool} {text : Text} {line : PassRule} {o : Resolved}
    (h : T.offer env atStart text line = some o) : (∀ e ∈ o.effects, ∃ x, e.kind = .set x) ∧ o.origin ≠ none ∧
      o.length = o.input.length ∧ (o.input <+: text.drop o.offset) := by
  simp only [PassTable.offer, Option.map_eq_some_iff] at h
  obtain ⟨⟨x, y, z⟩, hs, rfl⟩ := h
  refine ⟨?_, by simp, rfl, ?_⟩
  · intro e he
    simp only [List.mem_filterMap] at he
    obtain ⟨a, -, ha⟩ := he
    cases a <;> simp [settingOf] at ha
    subst ha
    exact ⟨_, rfl⟩
  · obtain ⟨rest, rfl⟩ := stretchOf_split hs
    simp

theorem dealtWith_append (items : List Resolved) (c : Resolved) : dealtWith (items ++ [c]) = dealtWith items ++ c.input := by
  simp [dealtWith]

theorem spent_append (items : List Resolved) (c : Resolved) : spent (items ++ [c]) =
    if c.origin = none then spent items else if c.length = 0 then c.subset :: spent items else [] := by
  simp [spent, List.foldl_append]

theorem arrived_append (items : List Resolved) (c : Resolved) : arrived (items ++ [c]) = (c.length != 0) := by
  simp [arrived]

theorem held_aux (l : List Resolved) (Pi P n A B : Nat) (hA : A ≤ 1) (hB : B = if n = 0 then 1 else 0) :
    ((l.filter fun o => o.offset != 0 && decide (P + n + B ≤ Pi + o.offset)).map
      fun o => { o with offset := Pi + o.offset - (P + n) }) =
    ((((l.filter fun o => o.offset != 0 && decide (P + A ≤ Pi + o.offset)).map
      fun o => { o with offset := Pi + o.offset - P }).filter (·.offset != 0)).filter (·.offset ≥ n)).map
        fun o => { o with offset := o.offset - n } := by
  simp only [List.filter_map, List.filter_filter, List.map_map]
  have h1 : (l.filter fun o => o.offset != 0 && decide (P + n + B ≤ Pi + o.offset)) =
      l.filter fun o => (((fun x : Resolved => decide (x.offset ≥ n)) ∘ fun o => { o with offset := Pi + o.offset - P }) o &&
        (((fun x : Resolved => x.offset != 0) ∘ fun o => { o with offset := Pi + o.offset - P }) o &&
          (o.offset != 0 && decide (P + A ≤ Pi + o.offset)))) := by
    refine List.filter_congr fun o _ => ?_
    rw [Bool.eq_iff_iff]
    simp only [Bool.and_eq_true, bne_iff_ne, ne_eq, decide_eq_true_eq, Function.comp]
    split at hB <;> omega
  rw [h1]
  refine List.map_congr_left fun o _ => ?_
  simp only [Function.comp, Resolved.mk.injEq, and_true, true_and]
  omega

theorem found_aux (l : List Resolved) (P n B : Nat) (hB : B = if n = 0 then 1 else 0) :
    ((l.filter fun o => o.offset != 0 && decide (P + n + B ≤ P + o.offset)).map
      fun o => { o with offset := P + o.offset - (P + n) }) =
    (((l.filter (·.offset != 0)).filter (·.offset != 0)).filter (·.offset ≥ n)).map
        fun o => { o with offset := o.offset - n } := by
  simp only [List.filter_filter]
  have h1 : (l.filter fun o => o.offset != 0 && decide (P + n + B ≤ P + o.offset)) =
      l.filter fun o => (decide (o.offset ≥ n) && (o.offset != 0 && (o.offset != 0))) := by
    refine List.filter_congr fun o _ => ?_
    rw [Bool.eq_iff_iff]
    simp only [Bool.and_eq_true, bne_iff_ne, ne_eq, decide_eq_true_eq]
    split at hB <;> omega
  rw [h1]
  refine List.map_congr_left fun o _ => ?_
  simp only [Resolved.mk.injEq, and_true, true_and]
  omega

/-- The held replacements one item later. -/
theorem held_append (offers : List Resolved → List Resolved) (items : List Resolved) (c : Resolved) (hc : c.length = c.input.length) :
    heldOf offers (items ++ [c]) =
      updateOffsets ((heldOf offers items ++ (offers items).filter (·.offset != 0)).filter (·.offset != 0)) c.length := by
  unfold heldOf
  rw [List.length_append, List.length_singleton, List.range_succ, List.flatMap_append, List.flatMap_singleton,
    List.take_left' rfl, List.filter_append, updateOffsets, List.filter_append, List.map_append, dealtWith_append, arrived_append]
  have hB : (if (c.length != 0) = true then 0 else 1) = if c.length = 0 then 1 else 0 := by
    by_cases h : c.length = 0 <;> simp [h]
  congr 1
  · rw [List.filter_flatMap, List.filter_flatMap, List.map_flatMap]
    have hcong : ∀ {f g : Nat → List Resolved} (n : Nat), (∀ i < n, f i = g i) → (List.range n).flatMap f = (List.range n).flatMap g := by
      intro f g n h
      rw [List.flatMap, List.flatMap, List.map_congr_left fun i hi => h i (List.mem_range.1 hi)]
    refine hcong _ fun i hi => ?_
    rw [List.take_append_of_le_length (by omega), List.length_append, ← hc]
    exact held_aux _ _ _ _ _ _ (by split <;> omega) hB
  · rw [List.length_append, ← hc]
    exact found_aux _ _ _ _ hB

/-- The held replacements for the place itself. -/
theorem held_here (offers : List Resolved → List Resolved) (items : List Resolved) :
    (heldOf offers items).filter (·.offset == 0) = fromEarlier offers items := by
  unfold heldOf fromEarlier
  rw [List.filter_flatMap]
  by_cases ha : arrived items = true
  · simp only [ha, if_true, List.map_flatMap]
    refine congrArg (List.flatMap · (List.range items.length)) (funext fun i => ?_)
    simp only [List.filter_map, List.filter_filter]
    have h1 : ((offers (items.take i)).filter fun o =>
        (((fun x : Resolved => x.offset == 0) ∘ fun o : Resolved =>
            { o with offset := (dealtWith (items.take i)).length + o.offset - (dealtWith items).length }) o &&
          (o.offset != 0 && decide ((dealtWith items).length + 0 ≤ (dealtWith (items.take i)).length + o.offset)))) =
        (offers (items.take i)).filter fun o =>
          o.offset != 0 && (dealtWith (items.take i)).length + o.offset == (dealtWith items).length := by
      refine List.filter_congr fun o _ => ?_
      rw [Bool.eq_iff_iff]
      simp only [Bool.and_eq_true, bne_iff_ne, ne_eq, decide_eq_true_eq, Function.comp, beq_iff_eq]
      omega
    rw [h1]
    refine List.map_congr_left fun o ho => ?_
    simp only [List.mem_filter, Bool.and_eq_true, bne_iff_ne, ne_eq, beq_iff_eq] at ho
    simp only [Resolved.mk.injEq, and_true, true_and]
    omega
  · simp only [ha, if_false, Bool.false_eq_true]
    refine List.flatMap_eq_nil_iff.2 fun i _ => ?_
    rw [List.filter_eq_nil_iff]
    intro o ho
    simp only [List.mem_map, List.mem_filter, Bool.and_eq_true, bne_iff_ne, ne_eq, decide_eq_true_eq] at ho
    obtain ⟨o', ⟨-, -, h2⟩, rfl⟩ := ho
    simp only [beq_iff_eq]
    omega

theorem mem_fromEarlier {offers : List Resolved → List Resolved} {items : List Resolved} {c : Resolved} :
    c ∈ fromEarlier offers items ↔ arrived items = true ∧ ∃ i < items.length, ∃ o ∈ offers (items.take i), o.offset ≠ 0 ∧
      (dealtWith (items.take i)).length + o.offset = (dealtWith items).length ∧ c = { o with offset := 0 } := by
  unfold fromEarlier
  split
  · next ha =>
    simp only [List.mem_map, List.mem_flatMap, List.mem_filter, List.mem_range, Bool.and_eq_true, bne_iff_ne, ne_eq, beq_iff_eq, ha,
      true_and]
    constructor
    · rintro ⟨o, ⟨i, hi, ho, h1, h2⟩, rfl⟩
      exact ⟨i, hi, o, ho, h1, h2, rfl⟩
    · rintro ⟨i, hi, o, ho, h1, h2, rfl⟩
      exact ⟨o, ⟨i, hi, ho, h1, h2⟩, rfl⟩
  · next ha => simp [ha]

section

variable {classes : CharClasses} {swaps : SwapClasses} {d : Direction} {stage : Stage} {rules : List PassRule}
  {ps : List (Regexp.Compiled Translation)} {lower : Char → List Char} {input : Text}

theorem drop_isEmpty {u rest : Text} : (utf8Len rest == utf8Len (u ++ rest)) = u.isEmpty := by
  cases u with
  | nil => simp
  | cons a u =>
    have := Char.utf8Size_pos a
    simp only [utf8Len_append, Regexp.utf8Len, List.isEmpty_cons, beq_eq_false_iff_ne]
    omega

/-- What an iteration of the loop looks at is what the items written so far say. -/
theorem step_choices (hc : compilePass classes swaps d stage rules = .ok ps) (hw : ∀ r ∈ rules, r.Written) {s : MpState}
    (hr : MpReach ⟨ps, stage⟩ lower input s) (h : Reflects ⟨classes, swaps, stage, usedLines d rules⟩ input s) :
    ∃ found, patternsFind ps lower s.rest s.env (utf8Len s.rest == utf8Len input) = .ok found ∧
      found = PassTable.offers ⟨classes, swaps, stage, usedLines d rules⟩ input s.out ∧
      heaviest ((found.filter (·.offset == 0) ++ (s.delayed ++ found.filter (·.offset != 0)).filter (·.offset == 0)).filter
        fun c => !s.seen.contains c.subset) =
      lastHeaviest ((PassTable.choices ⟨classes, swaps, stage, usedLines d rules⟩ input s.out).filter fun o =>
        !(spent s.out).contains o.subset) := by
  have inv := hr.inv ⟨_, _, _, _, hc⟩
  have hsplit : dealtWith s.out ++ s.rest = input := inv.split
  have hat : (utf8Len s.rest == utf8Len input) = (dealtWith s.out).isEmpty := by
    rw [← hsplit]; exact drop_isEmpty
  refine ⟨_, find_offers lower s.rest s.env _ hc hw, ?_, ?_⟩
  · rw [hat, h.env, h.rest]; rfl
  · rw [lastHeaviest_eq, h.seen, hat, h.env, h.delayed, h.rest]
    have h2 : ∀ l : List Resolved, (l.filter (·.offset != 0)).filter (·.offset == 0) = [] := by
      intro l
      rw [List.filter_filter, List.filter_eq_nil_iff]
      intro o _
      simp
    rw [List.filter_append (l₁ := heldOf _ _), h2, List.append_nil, held_here]
    rfl

theorem reflects_step (hc : compilePass classes swaps d stage rules = .ok ps) (hw : ∀ r ∈ rules, r.Written) {s s' : MpState}
    (hr : MpReach ⟨ps, stage⟩ lower input s) (h : Reflects ⟨classes, swaps, stage, usedLines d rules⟩ input s)
    (e : mpStep ⟨ps, stage⟩ lower input s = .ok (some s')) :
    ∃ c, s'.out = s.out ++ [c] ∧ PassTable.next ⟨classes, swaps, stage, usedLines d rules⟩ input s.out = some c ∧
      Reflects ⟨classes, swaps, stage, usedLines d rules⟩ input s' := by
  have inv := hr.inv ⟨_, _, _, _, hc⟩
  have inv' := (MpReach.step hr e).inv ⟨_, _, _, _, hc⟩
  have hrest : s'.rest = input.drop (dealtWith s'.out).length := by
    have : dealtWith s'.out ++ s'.rest = input := inv'.split
    rw [← this, List.drop_left' rfl]
  obtain ⟨found, hf, hfo, hcand⟩ := step_choices hc hw hr h
  unfold mpStep at e
  simp only [hf, hcand] at e
  unfold PassTable.next
  generalize hl : lastHeaviest ((PassTable.choices ⟨classes, swaps, stage, usedLines d rules⟩ input s.out).filter fun o =>
        !(spent s.out).contains o.subset) = best at e ⊢
  cases best with
  | some c =>
    -- the choice is an offer
    have hm : ∃ env atStart text line o n, PassTable.offer ⟨classes, swaps, stage, usedLines d rules⟩ env atStart text line = some o ∧
        c = { o with offset := n } := by
      rw [lastHeaviest_eq] at hl
      have hm := (List.mem_filter.1 (heaviest_mem hl)).1
      simp only [PassTable.choices, List.mem_append] at hm
      have hoff : ∀ items o, o ∈ PassTable.offers ⟨classes, swaps, stage, usedLines d rules⟩ input items → ∃ env atStart text line,
          PassTable.offer ⟨classes, swaps, stage, usedLines d rules⟩ env atStart text line = some o := by
        intro items o ho
        obtain ⟨line, -, h⟩ := List.mem_filterMap.1 ho
        exact ⟨_, _, _, line, h⟩
      rcases hm with hm | hm
      · obtain ⟨a, b, t, l, h⟩ := hoff _ _ (List.mem_filter.1 hm).1
        exact ⟨a, b, t, l, c, c.offset, h, rfl⟩
      · obtain ⟨-, i, -, o, ho, -, -, rfl⟩ := mem_fromEarlier.1 hm
        obtain ⟨a, b, t, l, h⟩ := hoff _ _ ho
        exact ⟨a, b, t, l, o, 0, h, rfl⟩
    obtain ⟨_, _, _, _, o, n, ho, rfl⟩ := hm
    obtain ⟨e1, e2, e3, -⟩ := offer_effects ho
    simp only [applyAll_settings o.effects s.env e1, Except.ok.injEq, Option.some.injEq] at e
    subst e
    refine ⟨_, rfl, rfl, ?_⟩
    constructor
    · exact hrest
    · funext v
      simp only [settings_append, h.env]
    · simp only [spent_append, h.seen, e2, if_false]
    · simp only [held_append _ s.out { o with offset := n } e3, h.delayed, hfo]
  | none =>
    simp only at e
    have hs := h.rest
    cases hrs : s.rest with
    | nil => rw [hrs] at e; simp at e
    | cons x rest =>
      rw [hrs] at e hs
      simp only [Except.ok.injEq, Option.some.injEq] at e
      subst e
      refine ⟨_, rfl, by simp [← hs], ?_⟩
      constructor
      · exact hrest
      · funext v
        simp only [settings_append, h.env]
        rfl
      · simp only [spent_append, h.seen]; rfl
      · simp only [held_append _ s.out (Resolved.new [x] [x] 1 stage none) rfl, h.delayed, hfo]
        rfl

theorem reflects_end (hc : compilePass classes swaps d stage rules = .ok ps) (hw : ∀ r ∈ rules, r.Written) {s : MpState}
    (hr : MpReach ⟨ps, stage⟩ lower input s) (h : Reflects ⟨classes, swaps, stage, usedLines d rules⟩ input s)
    (e : mpStep ⟨ps, stage⟩ lower input s = .ok none) :
    PassTable.next ⟨classes, swaps, stage, usedLines d rules⟩ input s.out = none := by
  obtain ⟨found, hf, hfo, hcand⟩ := step_choices hc hw hr h
  unfold mpStep at e
  simp only [hf, hcand] at e
  unfold PassTable.next
  generalize lastHeaviest ((PassTable.choices ⟨classes, swaps, stage, usedLines d rules⟩ input s.out).filter fun o =>
        !(spent s.out).contains o.subset) = best at e ⊢
  cases best with
  | some c => simp only at e; split at e <;> cases e
  | none =>
    simp only at e
    have hs := h.rest
    cases hrs : s.rest with
    | cons x rest => rw [hrs] at e; simp at e
    | nil => rw [hrs] at hs; simp [← hs]

theorem PassTable.Run.unique {T : PassTable} {a b : List Resolved} (ha : T.Run input a) (hb : T.Run input b) : a = b := by
  have key : ∀ n, n ≤ a.length → n ≤ b.length ∧ a.take n = b.take n := by
    intro n
    induction n with
    | zero => intro _; simp
    | succ n ih =>
      intro hn
      obtain ⟨h1, h2⟩ := ih (by omega)
      have h3 := ha.each n (by omega)
      rw [h2] at h3
      by_cases h : n < b.length
      · have h4 := hb.each n h
        rw [h3] at h4
        refine ⟨h, ?_⟩
        rw [List.take_succ_eq_append_getElem (by omega), List.take_succ_eq_append_getElem h, h2, Option.some.inj h4]
      · have : n = b.length := by omega
        have h5 := hb.last
        rw [← List.take_length (l := b), ← this, h3] at h5
        cases h5
  obtain ⟨h1, h2⟩ := key a.length (Nat.le_refl _)
  rw [List.take_length] at h2
  by_cases h : a.length < b.length
  · have h4 := hb.each _ h
    rw [← h2, ha.last] at h4
    cases h4
  · rw [List.take_of_length_le (by omega)] at h2
    exact h2

/-- **C72.** A multipass stage does exactly this: item after item, the heaviest replacement that a line read from here or
from an earlier place offers for this place — the last one if there are several, and none that replaces nothing again and
again —, or, if there is none, the next character, unchanged. -/
theorem C72_stage_exact (classes : CharClasses) (swaps : SwapClasses) (d : Direction) (stage : Stage) (rules : List PassRule)
    (ps : List (Regexp.Compiled Translation)) (hc : compilePass classes swaps d stage rules = .ok ps)
    (hw : ∀ r ∈ rules, r.Written) (lower : Char → List Char) (input : Text) (ts : List Resolved) :
    MultipassTable.Traces ⟨ps, stage⟩ lower input ts ↔
      PassTable.Run ⟨classes, swaps, stage, usedLines d rules⟩ input ts := by
  have sound : ∀ ts, MultipassTable.Traces ⟨ps, stage⟩ lower input ts →
      PassTable.Run ⟨classes, swaps, stage, usedLines d rules⟩ input ts := by
    rintro ts ⟨fuel, hf⟩
    have hreach : ∀ {s}, MpReach ⟨ps, stage⟩ lower input s → Reflects ⟨classes, swaps, stage, usedLines d rules⟩ input s ∧
        ∀ i (h : i < s.out.length), PassTable.next ⟨classes, swaps, stage, usedLines d rules⟩ input (s.out.take i) = some s.out[i] := by
      intro s hr
      induction hr with
      | init =>
        exact ⟨⟨by simp [MpState.init, dealtWith], rfl, rfl, rfl⟩, by intro i h; simp [MpState.init] at h⟩
      | @step s s' hr e ih =>
        obtain ⟨c, h1, h2, h3⟩ := reflects_step hc hw hr ih.1 e
        refine ⟨h3, fun i h => ?_⟩
        simp only [h1] at h ⊢
        rw [List.length_append, List.length_singleton] at h
        by_cases hi : i < s.out.length
        · rw [List.take_append_of_le_length (by omega), ih.2 i hi, List.getElem_append_left hi]
        · have : i = s.out.length := by omega
          subst this
          rw [List.take_left' rfl, h2, List.getElem_concat_length rfl]
    obtain ⟨s', ⟨hr, he⟩, rfl⟩ := mpLoop_reach (fun s => MpReach ⟨ps, stage⟩ lower input s ∧ mpStep ⟨ps, stage⟩ lower input s = .ok none)
      (fun s hr e => ⟨hr, e⟩) .init hf
    exact ⟨(hreach hr).2, reflects_end hc hw hr (hreach hr).1 he⟩
  refine ⟨sound ts, fun h => ?_⟩
  obtain ⟨ts', ht, -⟩ := C06_multipass_terminates ⟨ps, stage⟩ ⟨_, _, _, _, hc⟩ lower input
  rw [h.unique (sound ts' ht)]
  exact ht

end

end Louis
