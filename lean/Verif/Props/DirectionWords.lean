import Verif.Props.Library
import Verif.Props.LineGrammar

/-!
# C12: the words `nofor` and `noback` of a line decide the directions of its rule
-/

namespace Louis

/-- A rule made by a line has the constraints of the line, unless it has no effect at all. -/
theorem RuleSrc.cons_eq {cons : RuleCons} {withs : List WithClass} {body : List Text} {r : Rule}
    (h : RuleSrc cons withs body r) (he : ∀ c, r ≠ .other c) : r.cons = cons := by
  have k1 : ∀ p ∈ dotsOpcodes, ∀ a, (p.2 a).cons = .none := by simp [dotsOpcodes, Rule.cons]
  have k2 : ∀ p ∈ dotsDirOpcodes, ∀ a c, (p.2 a c).cons = c := by simp [dotsDirOpcodes, Rule.cons]
  have k3 : ∀ p ∈ charsOpcodes, ∀ a, (p.2 a).cons = .none := by simp [charsOpcodes, Rule.cons]
  have k4 : ∀ p ∈ nameCharsOpcodes, ∀ a b, (p.2 a b).cons = .none := by simp [nameCharsOpcodes, Rule.cons]
  have k5 : ∀ p ∈ nameDotsOpcodes, ∀ a b, (p.2 a b).cons = .none := by simp [nameDotsOpcodes, Rule.cons]
  have k6 : ∀ p ∈ nameDotsDirOpcodes, ∀ a b c, (p.2 a b c).cons = c := by simp [nameDotsDirOpcodes, Rule.cons]
  have k7 : ∀ p ∈ charsDotsOpcodes, ∀ a b, (p.2 a b).cons = .none := by simp [charsDotsOpcodes, Rule.cons]
  have k8 : ∀ p ∈ charsDotsDirOpcodes, ∀ a b c, (p.2 a b c).cons = c := by simp [charsDotsDirOpcodes, Rule.cons]
  have k9 : ∀ p ∈ charsDotsAnyOpcodes, ∀ a b c, (p.2 a b c).cons = c := by simp [charsDotsAnyOpcodes, Rule.cons]
  have k10 : ∀ p ∈ charsBrailleOpcodes, ∀ a b, (p.2 a b).cons = .none := by simp [charsBrailleOpcodes, Rule.cons]
  cases h
  case dots ho _ hc => subst hc; exact k1 _ ho _
  case dotsDir ho _ _ => exact k2 _ ho _ _
  case chars ho _ hc => subst hc; exact k3 _ ho _
  case nameChars ho _ _ hc => subst hc; exact k4 _ ho _ _
  case nameDots ho _ _ hc => subst hc; exact k5 _ ho _ _
  case nameDotsDir ho _ _ _ => exact k6 _ ho _ _ _
  case charsDots ho _ _ hc => subst hc; exact k7 _ ho _ _
  case charsDotsDir ho _ _ _ => exact k8 _ ho _ _ _
  case charsDotsAny ho _ _ => exact k9 _ ho _ _ _
  case charsBraille ho _ _ hc => subst hc; exact k10 _ ho _ _
  all_goals first
  | rfl
  | (rename_i hc; subst hc; rfl)
  | exact absurd rfl (he _)

/-- The word `nofor`, `noback` or `nocross`. -/
abbrev DirectionWord (w : Text) : Prop := w = "nofor".toList ∨ w = "noback".toList ∨ w = "nocross".toList

/-- The opcode is none of the words `nofor`, `noback` and `nocross`. -/
theorem RuleSrc.head {cons : RuleCons} {withs : List WithClass} {body : List Text} {r : Rule}
    (h : RuleSrc cons withs body r) : ∃ w ws, body = w :: ws ∧ ¬ DirectionWord w := by
  have k1 : ∀ p ∈ dotsOpcodes, ¬ DirectionWord p.1.toList := by decide
  have k2 : ∀ p ∈ dotsDirOpcodes, ¬ DirectionWord p.1.toList := by decide
  have k3 : ∀ p ∈ charsOpcodes, ¬ DirectionWord p.1.toList := by decide
  have k4 : ∀ p ∈ nameCharsOpcodes, ¬ DirectionWord p.1.toList := by decide
  have k5 : ∀ p ∈ nameDotsOpcodes, ¬ DirectionWord p.1.toList := by decide
  have k6 : ∀ p ∈ nameDotsDirOpcodes, ¬ DirectionWord p.1.toList := by decide
  have k7 : ∀ p ∈ charsDotsOpcodes, ¬ DirectionWord p.1.toList := by decide
  have k8 : ∀ p ∈ charsDotsDirOpcodes, ¬ DirectionWord p.1.toList := by decide
  have k9 : ∀ p ∈ charsDotsAnyOpcodes, ¬ DirectionWord p.1.toList := by decide
  have k10 : ∀ p ∈ charsBrailleOpcodes, ¬ DirectionWord p.1.toList := by decide
  have k11 : ∀ p ∈ charDefOpcodes, ¬ DirectionWord p.1.toList := by decide
  have k12 : ∀ p ∈ textOpcodes, ¬ DirectionWord p.1.toList := by decide
  have k13 : ∀ p ∈ passOpcodes, ¬ DirectionWord p.1.toList := by decide
  cases h
  case dots ho _ _ => exact ⟨_, _, rfl, k1 _ ho⟩
  case dotsDir ho _ _ => exact ⟨_, _, rfl, k2 _ ho⟩
  case chars ho _ _ => exact ⟨_, _, rfl, k3 _ ho⟩
  case nameChars ho _ _ _ => exact ⟨_, _, rfl, k4 _ ho⟩
  case nameDots ho _ _ _ => exact ⟨_, _, rfl, k5 _ ho⟩
  case nameDotsDir ho _ _ _ => exact ⟨_, _, rfl, k6 _ ho⟩
  case charsDots ho _ _ _ => exact ⟨_, _, rfl, k7 _ ho⟩
  case charsDotsDir ho _ _ _ => exact ⟨_, _, rfl, k8 _ ho⟩
  case charsDotsAny ho _ _ => exact ⟨_, _, rfl, k9 _ ho⟩
  case charsBraille ho _ _ _ => exact ⟨_, _, rfl, k10 _ ho⟩
  case charDef ho _ _ _ => exact ⟨_, _, rfl, k11 _ ho⟩
  case text ho _ _ => exact ⟨_, _, rfl, k12 _ ho⟩
  case pass ho _ _ _ _ _ => exact ⟨_, _, rfl, k13 _ ho⟩
  all_goals exact ⟨_, _, rfl, by decide⟩

/-- What follows the words `nofor`, `noback` and `nocross` does not begin with one of them. -/
theorem body_head {cons : RuleCons} {withs : List WithClass} {ws es body : List Text} {r : Rule} (hw : WithsSrc ws withs)
    (hes : ∀ e ∈ es, e = "empmatchbefore".toList ∨ e = "empmatchafter".toList) (hb : RuleSrc cons withs body r) (rest : List Text) :
    ∀ w, (ws ++ (es ++ (body ++ rest))).head? = some w → ¬ DirectionWord w := by
  intro w hw'
  cases hw with
  | before cls ws' cs more => cases hw'; decide
  | after cls ws' cs more => cases hw'; decide
  | nil =>
    cases es with
    | cons e' es' =>
      cases hw'
      rcases hes _ (List.mem_cons_self ..) with h' | h' <;> rw [h'] <;> decide
    | nil =>
      obtain ⟨v, vs, hv, hn⟩ := hb.head
      subst hv
      cases hw'
      exact hn

/-- A rule with an effect may be used for forward translation unless its line begins with `nofor`, and
for backward translation unless its line begins with `noback`. -/
theorem LineSrc.directions {words : List Text} {r : Rule} (h : LineSrc words r) (he : ∀ c, r ≠ .other c) :
    (r.AllowedIn .forward ↔ words.head? ≠ some "nofor".toList) ∧
    (r.AllowedIn .backward ↔ words.head? ≠ some "noback".toList) := by
  obtain ⟨ps, ws, es, body, rest, cons, withs, _, hp, hw, hes, hb⟩ := h
  have e := hb.cons_eq he
  have tail := body_head hw hes hb rest
  unfold Rule.AllowedIn
  rw [e]
  obtain ⟨dir, cross, nofor, noback, nocross, hd, hc⟩ := hp
  simp only [List.mem_cons, Prod.mk.injEq, List.not_mem_nil, or_false] at hd hc
  rcases hd with ⟨rfl, rfl, rfl⟩ | ⟨rfl, rfl, rfl⟩ | ⟨rfl, rfl, rfl⟩
  · rcases hc with ⟨rfl, rfl⟩ | ⟨rfl, rfl⟩
    · simp only [List.nil_append, true_iff, or_true]
      exact ⟨fun hx => tail _ hx (.inl rfl), fun hx => tail _ hx (.inr (.inl rfl))⟩
    · exact ⟨iff_of_true rfl (by simp), iff_of_true (.inr rfl) (by simp)⟩
  · exact ⟨iff_of_false (by simp) (by simp), iff_of_true (.inl rfl) (by simp)⟩
  · exact ⟨iff_of_true rfl (by simp), iff_of_false (by simp) (by simp)⟩

/-- **C12** (and C58), from the line: a rule with an effect may be used for forward translation unless its line begins with the word `nofor`,
and for backward translation unless its line begins with the word `noback`. -/
theorem C12_direction_words {line : Text} {r : Rule} (h : parseLine line = some r) (he : ∀ c, r ≠ .other c) :
    (r.AllowedIn .forward ↔ (tokens line).head? ≠ some "nofor".toList) ∧
    (r.AllowedIn .backward ↔ (tokens line).head? ≠ some "noback".toList) :=
  ((C58_line_grammar line r).mp h).directions he

/-- A line with one of the words: it is a rule with an effect, not allowed in forward translation. -/
example : ∃ r, parseLine "nofor endcapsword 6".toList = some r ∧ (∀ c, r ≠ .other c) ∧ ¬ r.AllowedIn .forward ∧ r.AllowedIn .backward := by
  have h : parseLine "nofor endcapsword 6".toList = some (.endcapsword [[.d6]] ⟨true, false, false⟩) := by decide
  have he : ∀ c, Rule.endcapsword [[.d6]] ⟨true, false, false⟩ ≠ .other c := fun c hc => nomatch hc
  have k := C12_direction_words h he
  exact ⟨_, h, he, fun ha => k.1.mp ha (by decide), k.2.mpr (by decide)⟩

end Louis
