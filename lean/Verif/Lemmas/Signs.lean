import Verif.Model.Pipeline
import Verif.Props.Indicators

/-!
# The signs an indicator writes are signs of the table
-/

namespace Louis

open Regexp (Fault)

/-- The signs of the capital indicator. -/
def CapIndicator.signs (x : CapIndicator) : List Resolved :=
  x.capsletter.toList ++ x.begcapsword.toList ++ x.endcapsword.toList ++ x.begcaps.toList ++ x.endcaps.toList ++
    x.begcapsphrase.toList ++ x.endcapsphrase.toList

/-- All signs of the indicators of a table. -/
def Indicators.signs (i : Indicators) : List Resolved :=
  (match i.comp with | some c => c.begcomp :: c.endcomp.toList | none => []) ++ i.emph.flatMap (·.indicators) ++
    (match i.num with | some c => c.start.toList ++ c.stop.toList | none => []) ++
    (match i.letsign with | some c => [c.start] | none => []) ++ (match i.caps with | some c => c.signs | none => []) ++
    (match i.nocontract with | some c => [c.start] | none => [])

theorem num_loop_signs (i : NumIndicator) : ∀ (cs : Text) (pos : Nat) (b : Bool), ∀ q ∈ i.loop pos b cs,
    q.2 ∈ i.start.toList ++ i.stop.toList
  | [], _, _, q, h => by simp [NumIndicator.loop] at h
  | c :: cs, pos, b, q, h => by
    rw [NumIndicator.loop.eq_def] at h
    simp only at h
    split at h
    · exact num_loop_signs i cs _ _ q h
    · rcases List.mem_append.mp h with h | h
      · obtain ⟨t, ht, rfl⟩ := toList_map_mem h
        simp [ht]
      · exact num_loop_signs i cs _ _ q h
    · exact num_loop_signs i cs _ _ q h
    · split at h
      · exact num_loop_signs i cs _ _ q h
      · split at h
        · exact num_loop_signs i cs _ _ q h
        · rcases List.mem_append.mp h with h | h
          · split at h
            · obtain ⟨t, ht, rfl⟩ := toList_map_mem h
              simp [ht]
            · cases h
          · exact num_loop_signs i cs _ _ q h

theorem CapMark.emit_signs (x : CapIndicator) (m : CapMark) : ∀ q ∈ m.emit x, q.2 ∈ x.signs := by
  intro q hq
  have hm : ∀ (o : Option Resolved) (i : Nat), q ∈ o.toList.map (fun t => (i, t)) → ∃ t, o = some t ∧ q.2 = t := by
    intro o i h
    obtain ⟨t, ht, rfl⟩ := List.mem_map.mp h
    exact ⟨t, by simpa using ht, rfl⟩
  cases m with
  | letter i =>
    obtain ⟨t, ht, e⟩ := hm _ _ hq
    rw [e]; simp [CapIndicator.signs, ht]
  | word p e stop =>
    rcases List.mem_append.mp hq with hq | hq
    · obtain ⟨t, ht, e⟩ := hm _ _ hq
      rw [e]; simp [CapIndicator.signs, ht]
    · cases stop with
      | none => cases hq
      | some s =>
        obtain ⟨t, ht, e⟩ := hm _ _ hq
        rw [e]; simp [CapIndicator.signs, ht]
  | mode p e =>
    rcases List.mem_append.mp hq with hq | hq
    · obtain ⟨t, ht, e⟩ := hm _ _ hq
      rw [e]; simp [CapIndicator.signs, ht]
    · obtain ⟨t, ht, e⟩ := hm _ _ hq
      rw [e]; simp [CapIndicator.signs, ht]

theorem CapPiece.emit_signs (x : CapIndicator) (p : CapPiece) : ∀ q ∈ p.emit x, q.2 ∈ x.signs := by
  intro q hq
  have hm : ∀ (o : Option Resolved) (i : Nat), q ∈ o.toList.map (fun t => (i, t)) → ∃ t, o = some t ∧ q.2 = t := by
    intro o i h
    obtain ⟨t, ht, rfl⟩ := List.mem_map.mp h
    exact ⟨t, by simpa using ht, rfl⟩
  cases p with
  | one m => exact m.emit_signs x q hq
  | phrase p e tail =>
    rcases List.mem_append.mp hq with hq | hq
    · obtain ⟨t, ht, e⟩ := hm _ _ hq
      rw [e]; simp [CapIndicator.signs, ht]
    · split at hq
      · rename_i t ht
        split at hq
        · obtain ⟨m, -, hq⟩ := List.mem_flatMap.mp hq
          exact m.emit_signs x q hq
        · simp only [List.mem_singleton] at hq
          subst hq
          simp [CapIndicator.signs, ht]
      · obtain ⟨t, ht, e⟩ := hm _ _ hq
        rw [e]; simp [CapIndicator.signs, ht]

theorem caps_signs (x : CapIndicator) (input : Text) : ∀ q ∈ x.precompute input, q.2 ∈ x.signs := by
  intro q hq
  cases hx : x.isIndicating with
  | false =>
    unfold CapIndicator.precompute at hq
    rw [hx] at hq
    cases hq
  | true =>
    obtain ⟨ps, e, -⟩ := C27_announcements x input hx
    rw [e] at hq
    obtain ⟨p, -, hq⟩ := List.mem_flatMap.mp hq
    exact p.emit_signs x q hq

/-- Every indication at every position is a sign of the table. -/
theorem pairs_signs (i : Indicators) (lower : Char → List Char) (input : Text) (spans : List Span) (ps : List (Nat × Resolved))
    (h : i.pairs lower input spans = .ok ps) : ∀ q ∈ ps, q.2 ∈ i.signs := by
  unfold Indicators.pairs at h
  split at h
  · cases h
  · rename_i emph he
    injection h with h
    subst h
    intro q hq
    unfold Indicators.signs
    simp only [List.mem_append] at hq ⊢
    rcases hq with ((((hq | hq) | hq) | hq) | hq) | hq
    · left; left; left; left; left
      cases hc : i.comp with
      | none => rw [hc] at hq; cases hq
      | some c =>
        rw [hc] at hq
        simp only [CompIndicator.precompute, sortByPos, mem_stableSort] at hq
        obtain ⟨s, -, hq⟩ := List.mem_flatMap.mp hq
        split at hq
        · cases hq
        · split at hq
          · cases hq
          · rcases List.mem_cons.mp hq with rfl | hq
            · simp
            · obtain ⟨t, ht, rfl⟩ := toList_map_mem hq
              simp [ht]
    · left; left; left; left; right
      unfold emphPrecompute at he
      split at he
      · cases he
      · rename_i es e
        injection he with he
        subst he
        obtain ⟨ev, hev, rfl⟩ := List.mem_map.mp hq
        rw [mem_stableSort] at hev
        obtain ⟨x, hx, h⟩ := emphEvents_ind input spans i.emph 0 es e ev hev
        exact List.mem_flatMap.mpr ⟨x, hx, h⟩
    · left; left; left; right
      cases hc : i.num with
      | none => rw [hc] at hq; cases hq
      | some c =>
        rw [hc] at hq
        simp only [NumIndicator.precompute] at hq
        split at hq
        · cases hq
        · exact num_loop_signs c input 0 false q hq
    · left; left; right
      cases hc : i.letsign with
      | none => rw [hc] at hq; cases hq
      | some c =>
        rw [hc] at hq
        simp only [LetIndicator.precompute] at hq
        obtain ⟨j, -, rfl⟩ := List.mem_map.mp hq
        simp
    · left; right
      cases hc : i.caps with
      | none => rw [hc] at hq; cases hq
      | some c =>
        rw [hc] at hq
        exact caps_signs c input q hq
    · right
      cases hc : i.nocontract with
      | none => rw [hc] at hq; cases hq
      | some c =>
        rw [hc] at hq
        simp only [NocIndicator.precompute] at hq
        obtain ⟨j, -, rfl⟩ := List.mem_map.mp hq
        simp

theorem precompute_signs (i : Indicators) (lower : Char → List Char) (input : Text) (spans : List Span)
    (ind : List (List Resolved)) (h : i.precompute lower input spans = .ok ind) (pos : Nat) :
    ∀ r ∈ (ind[pos]?).getD [], r ∈ i.signs := by
  obtain ⟨ps, ind', h1, h2, -, -, h3⟩ := C22_indicators_total i lower input spans
  rw [h] at h2
  injection h2 with h2
  subst h2
  rw [h3]
  intro r hr
  obtain ⟨q, hq, rfl⟩ := List.mem_map.mp hr
  exact pairs_signs i lower input spans ps h1 q (List.mem_filter.mp hq).1

/-! ## The signs of a compiled table -/

/-- The dots of a rule that defines a sign. -/
def Rule.sign? : Rule → Option Cells
  | .numsign dots | .nonumsign dots _ | .capsletter dots _ | .begcapsword dots _ | .endcapsword dots _ | .begcaps dots
  | .endcaps dots | .begcapsphrase dots | .endcapsphrase dots _ | .emphletter _ dots | .begemphword _ dots
  | .endemphword _ dots | .begemphphrase _ dots | .endemphphrase _ dots _ | .begemph _ dots _ | .endemph _ dots _
  | .letsign dots | .nocontractsign dots _ | .begcomp dots _ | .endcomp dots _ => some dots
  | _ => none

/-- All signs collected so far. -/
def Signs.all (s : Signs) : List Resolved :=
  s.begcomp.toList ++ s.endcomp.toList ++ s.num.start.toList ++ s.num.stop.toList ++
    (s.letsign.map fun x => indication x.1 x.2).toList ++ s.caps.signs ++
    (s.nocontractsign.map fun x => indication x.1 x.2).toList ++ s.emph.flatMap (·.indicators)

theorem mem_updClass {name : Text} {f : EmphClass → EmphClass} {t : Resolved} : ∀ {l : List EmphClass},
    t ∈ (updClass name f l).flatMap (·.indicators) →
    (∃ c, (c ∈ l ∨ c = EmphClass.new name) ∧ t ∈ (f c).indicators) ∨ t ∈ l.flatMap (·.indicators)
  | [], h => by
    simp only [updClass, List.flatMap_cons, List.flatMap_nil, List.append_nil] at h
    exact Or.inl ⟨_, Or.inr rfl, h⟩
  | c :: cs, h => by
    unfold updClass at h
    split at h
    · rw [List.flatMap_cons] at h
      rcases List.mem_append.mp h with h | h
      · exact Or.inl ⟨c, Or.inl (List.mem_cons_self ..), h⟩
      · exact Or.inr (by rw [List.flatMap_cons]; exact List.mem_append_right _ h)
    · rw [List.flatMap_cons] at h
      rcases List.mem_append.mp h with h | h
      · exact Or.inr (by rw [List.flatMap_cons]; exact List.mem_append_left _ h)
      · rcases mem_updClass h with ⟨c', hc', h'⟩ | h'
        · refine Or.inl ⟨c', ?_, h'⟩
          rcases hc' with hc' | hc'
          · exact Or.inl (List.mem_cons_of_mem _ hc')
          · exact Or.inr hc'
        · exact Or.inr (by rw [List.flatMap_cons]; exact List.mem_append_right _ h')

/-- An update of a class that adds at most one sign. -/
theorem mem_emphasis {s : Signs} {name : Text} {f : EmphClass → EmphClass} {t : Resolved} {new : Option Resolved}
    (hf : ∀ c, ∀ t ∈ (f c).indicators, t ∈ c.indicators ∨ new = some t) (h : t ∈ (s.emphasis name f).all) :
    t ∈ s.all ∨ new = some t := by
  unfold Signs.all Signs.emphasis at h
  rcases List.mem_append.mp h with h | h
  · exact Or.inl (List.mem_append_left _ h)
  · rcases mem_updClass h with ⟨c, hc, h⟩ | h
    · rcases hf c t h with h | h
      · rcases hc with hc | rfl
        · exact Or.inl (List.mem_append_right _ (List.mem_flatMap.mpr ⟨c, hc, h⟩))
        · simp [EmphClass.new, EmphClass.indicators] at h
      · exact Or.inr h
    · exact Or.inl (List.mem_append_right _ h)

theorem mem_all {s : Signs} {t : Resolved} : t ∈ s.all ↔
    (((((((s.begcomp = some t ∨ s.endcomp = some t) ∨ s.num.start = some t) ∨ s.num.stop = some t) ∨
      s.letsign.map (fun x => indication x.1 x.2) = some t) ∨ t ∈ s.caps.signs) ∨
      s.nocontractsign.map (fun x => indication x.1 x.2) = some t) ∨ t ∈ s.emph.flatMap (·.indicators)) := by
  simp only [Signs.all, List.mem_append, Option.mem_toList, Option.mem_def]

theorem mem_capSigns {x : CapIndicator} {t : Resolved} : t ∈ x.signs ↔
    ((((((x.capsletter = some t ∨ x.begcapsword = some t) ∨ x.endcapsword = some t) ∨ x.begcaps = some t) ∨
      x.endcaps = some t) ∨ x.begcapsphrase = some t) ∨ x.endcapsphrase = some t) := by
  simp only [CapIndicator.signs, List.mem_append, Option.mem_toList, Option.mem_def]

theorem mem_emphSigns {x : EmphClass} {t : Resolved} : t ∈ x.indicators ↔
    ((((((x.emphletter = some t ∨ x.begemph = some t) ∨ x.endemph = some t) ∨ x.begemphword = some t) ∨
      x.endemphword = some t) ∨ x.begemphphrase = some t) ∨ x.endemphphrase = some t) := by
  simp only [EmphClass.indicators, List.mem_append, Option.mem_toList, Option.mem_def]

theorem step_signs (classes : CharClasses) (d : Direction) (letterDots : List Text) (s : Signs) (r : Anchored) (t : Resolved)
    (h : t ∈ (s.step classes d letterDots r).all) :
    t ∈ s.all ∨ ∃ dots, r.rule.sign? = some dots ∧ t = indication dots.toText r.origin := by
  obtain ⟨rule, id⟩ := r
  have key : ∀ (name : Text) (f : EmphClass → EmphClass) (dots : Cells),
      (∀ c, ∀ t ∈ (f c).indicators, t ∈ c.indicators ∨ indication dots.toText (Anchored.origin ⟨rule, id⟩) = t) →
      rule.sign? = some dots → t ∈ (s.emphasis name f).all →
      t ∈ s.all ∨ ∃ dots, rule.sign? = some dots ∧ t = indication dots.toText (Anchored.origin ⟨rule, id⟩) := by
    intro name f dots hf hs h
    rcases mem_emphasis (new := some (indication dots.toText (Anchored.origin ⟨rule, id⟩))) (by
      intro c t h
      rcases hf c t h with h | h
      · exact Or.inl h
      · exact Or.inr (by rw [h])) h with h | h
    · exact Or.inl h
    · exact Or.inr ⟨dots, hs, by injection h with h; exact h.symm⟩
  have key' : ∀ (name : Text) (f : EmphClass → EmphClass), (∀ c, (f c).indicators = c.indicators) →
      t ∈ (s.emphasis name f).all → t ∈ s.all := by
    intro name f hf h
    rcases mem_emphasis (new := none) (fun c t h => by rw [hf] at h; exact Or.inl h) h with h | h
    · exact h
    · cases h
  cases rule
  case emphletter name dots => exact key name _ dots (by intro c t h; rw [mem_emphSigns] at h ⊢; grind) rfl h
  case begemphword name dots => exact key name _ dots (by intro c t h; rw [mem_emphSigns] at h ⊢; grind) rfl h
  case endemphword name dots => exact key name _ dots (by intro c t h; rw [mem_emphSigns] at h ⊢; grind) rfl h
  case begemphphrase name dots => exact key name _ dots (by intro c t h; rw [mem_emphSigns] at h ⊢; grind) rfl h
  case endemphphrase name dots _ => exact key name _ dots (by intro c t h; rw [mem_emphSigns] at h ⊢; grind) rfl h
  case begemph name dots _ => exact key name _ dots (by intro c t h; rw [mem_emphSigns] at h ⊢; grind) rfl h
  case endemph name dots _ => exact key name _ dots (by intro c t h; rw [mem_emphSigns] at h ⊢; grind) rfl h
  case emphclass name => exact Or.inl (key' name _ (fun _ => rfl) h)
  case lenemphphrase name n => refine Or.inl (key' name _ ?_ h); intro c; rfl
  case emphmodechars name n => refine Or.inl (key' name _ ?_ h); intro c; rfl
  case noemphchars name n => refine Or.inl (key' name _ ?_ h); intro c; rfl
  all_goals first
    | exact Or.inl h
    | (simp only [Signs.step] at h
       rw [mem_all] at h ⊢
       try rw [mem_capSigns] at h ⊢
       simp only [Rule.sign?, Option.map_some] at h ⊢
       grind)

theorem midnum_all (s : Signs) (chars : Text) : (s.midnum chars).all = s.all := rfl

end Louis
