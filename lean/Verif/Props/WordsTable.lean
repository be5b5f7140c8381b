import Verif.Props.WordsFlags
import Verif.Spec.Words
import Verif.Props.RoundTrip

/-!
# C75: what the lines of the table say about a blank
-/

namespace Louis

/-- The operation is not about the blank. -/
def PrimOp.Free (b : Char) : PrimOp → Prop
  | .rule _ e | .comp6 e => b ∉ e.chars
  | .matchRule _ _ _ _ _ | .context _ _ _ => False
  | _ => True

theorem opsD_free {ctx : TableCtx} {L : List Char} {D : List Text} {b : Char} {r : Anchored} (h : r.rule.WithinWords b) :
    ∀ op ∈ r.opsD ctx .forward L D, op.Free b := by
  have sig : ∀ dots : Cells, ∀ op ∈ r.signOps .forward D dots, op.Free b := by
    intro dots op hop
    unfold Anchored.signOps at hop
    rw [if_neg (by simp)] at hop
    cases hop
  have dig : ∀ c (dots : Cells), ∀ op ∈ r.digitOps .forward D c dots, op.Free b := by
    intro c dots op hop
    unfold Anchored.digitOps at hop
    split at hop
    · exact absurd ‹_ = Direction.backward› (by decide)
    · cases hop
  have ins : ∀ chars dots be af withs, b ∉ chars → (r.insertion chars dots be af withs).Free b := fun _ _ _ _ _ h => h
  intro op hop
  unfold Anchored.opsD at hop
  cases he : r.ops ctx .forward L D with
  | error e => rw [he] at hop; cases hop
  | ok ops =>
    rw [he] at hop
    have hop : op ∈ ops := hop
    unfold Anchored.ops at he
    generalize hr : r.rule = rule at he h
    cases rule <;> simp only [Rule.WithinWords] at h
    case charDef k c dots cons =>
      cases k
      case hyphen => cases he; cases hop
      case digit =>
        cases he
        rcases List.mem_append.mp hop with hop | hop
        · split at hop
          · cases hop
          · rw [List.mem_singleton.mp hop]; trivial
        · exact dig c dots op hop
      case litdigit =>
        cases he
        rcases List.mem_cons.mp hop with rfl | hop
        · trivial
        · exact dig c dots op hop
      all_goals (cases he; rw [List.mem_singleton.mp hop]; trivial)
    case text k chars dots cons withs =>
      simp only at he
      split at he
      · cases he
      · cases he
        obtain ⟨e, -, rfl⟩ := List.mem_map.1 hop
        exact ins _ _ _ _ _ h
    case numsign => cases he; exact sig _ op hop
    case nonumsign => cases he; exact sig _ op hop
    case capsletter => cases he; exact sig _ op hop
    case begcapsword => cases he; exact sig _ op hop
    case endcapsword => cases he; exact sig _ op hop
    case prepunc =>
      cases he
      split at hop
      · rw [List.mem_singleton.mp hop]; exact ins _ _ _ _ _ h
      · cases hop
    case postpunc =>
      cases he
      split at hop
      · rw [List.mem_singleton.mp hop]; exact ins _ _ _ _ _ h
      · cases hop
    all_goals first
      | (cases he; exact absurd hop List.not_mem_nil)
      | (cases he; rw [List.mem_singleton.mp hop]; exact ins _ _ _ _ _ h)
      | (cases he; rw [List.mem_singleton.mp hop]; trivial)
      | (simp only at he; split at he
         · cases he
         · cases he; rw [List.mem_singleton.mp hop]; first | exact ins _ _ _ _ _ h | exact h)
      | (simp only at he; split at he
         · cases he; rw [List.mem_singleton.mp hop]; trivial
         · cases he; exact absurd hop List.not_mem_nil)

theorem tableOps_free {ctx : TableCtx} {rules : List Anchored} {b : Char} (h : ∀ r ∈ rules, r.rule.WithinWords b) :
    ∀ op ∈ tableOps ctx .forward rules, op.Free b := by
  intro op hop
  unfold tableOps at hop
  rcases List.mem_append.1 hop with hop | hop
  · obtain ⟨r, hr, hop⟩ := List.mem_flatMap.1 hop
    unfold Anchored.firstOps at hop
    split at hop
    · rw [List.mem_singleton.1 hop]; trivial
    · rw [List.mem_singleton.1 hop]; trivial
    · cases hop
  · obtain ⟨r, hr, hop⟩ := List.mem_flatMap.1 hop
    exact opsD_free (h r hr) op hop

theorem noBlank_table {ctx : TableCtx} {rules : List Anchored} {b : Char} (h : ∀ r ∈ rules, r.rule.WithinWords b) :
    NoBlank (tableOps ctx .forward rules) .forward b := by
  have hf := tableOps_free (ctx := ctx) h
  constructor
  · intro e he
    obtain ⟨op, hop, e1⟩ := List.mem_filterMap.1 he
    have := hf op hop
    cases op with
    | rule n r => cases n <;> simp only [reduceCtorEq, Option.some.injEq] at e1; subst e1; exact this
    | char => simp at e1
    | _ => simp at e1
  · intro e he
    obtain ⟨op, hop, e1⟩ := List.mem_filterMap.1 he
    have := hf op hop
    cases op with
    | rule n r => cases n <;> simp only [reduceCtorEq, Option.some.injEq] at e1; subst e1; exact this
    | _ => simp at e1
  · intro e he
    obtain ⟨op, hop, e1⟩ := List.mem_filterMap.1 he
    have := hf op hop
    cases op with
    | comp6 r => simp only [Option.some.injEq] at e1; subst e1; exact this
    | _ => simp at e1

theorem noPatterns_table {ctx : TableCtx} {rules : List Anchored} {b : Char} (h : ∀ r ∈ rules, r.rule.WithinWords b) :
    (mainTable (ctx.prim .forward) .forward (tableOps ctx .forward rules)).NoPatterns := by
  have e1 : rules.filterMap (matchLineOf ctx) = [] := by
    rw [List.filterMap_eq_nil_iff]
    intro r hr
    unfold matchLineOf
    split
    · next e => exact absurd (h r hr) (by rw [e]; exact id)
    · rfl
  have e2 : rules.filterMap contextLineOf = [] := by
    rw [List.filterMap_eq_nil_iff]
    intro r hr
    unfold contextLineOf
    split
    · next e => exact absurd (h r hr) (by rw [e]; exact id)
    · rfl
  constructor
  · show matchLinesOf _ = []
    rw [matchLines_table, e1]
  · show contextLinesOf _ = []
    rw [contextLines_table, e2]

/-! ## Numbers -/

theorem latest_of {α : Type} {f : Anchored → Option α} {rules : List Anchored} {a : α} (h : latest f rules = some a) :
    ∃ r ∈ rules, f r = some a := by
  unfold latest at h
  have := List.mem_of_getLast? h
  exact List.mem_filterMap.1 this

theorem lastArg_free {f : Rule → Option Text} {rules : List Anchored} {b : Char}
    (h : ∀ r ∈ rules, ∀ cs, f r.rule = some cs → b ∉ cs) : b ∉ (lastArg f rules).getD [] := by
  cases hl : lastArg f rules with
  | none => simp
  | some cs =>
    obtain ⟨r, hr, e⟩ := latest_of hl
    exact h r hr cs e

theorem allChars_free {f : Rule → Option Text} {rules : List Anchored} {b : Char}
    (h : ∀ r ∈ rules, ∀ cs, f r.rule = some cs → b ∉ cs) : b ∉ allChars f rules := by
  intro hm
  obtain ⟨r, hr, hc⟩ := List.mem_flatMap.1 hm
  cases he : f r.rule with
  | none => rw [he] at hc; cases hc
  | some cs => rw [he] at hc; exact h r hr cs he hc

theorem blank_members {cl : CharClasses} {b : Char} (hb : Blank cl b) {k : CharClass} (hk : k ≠ .space) : b ∉ cl.members k := by
  intro h
  rw [mem_members, blank_not hb hk] at h
  cases h

theorem notNumeric_table {cl : CharClasses} {rules : List Anchored} {b : Char} (hb : Blank cl b)
    (h : ∀ r ∈ rules, r.rule.WithinWords b) : NotNumeric (numChars cl rules) b := by
  constructor
  · exact blank_members hb (by decide)
  · refine lastArg_free fun r hr cs e => ?_
    have := h r hr
    split at e
    · next e' => rw [e'] at this; cases e; exact this
    · cases e
  · refine List.not_mem_append (allChars_free fun r hr cs e => ?_) (allChars_free fun r hr cs e => ?_)
    · have := h r hr
      split at e
      · next e' => rw [e'] at this; cases e; simpa using Ne.symm this
      · cases e
    · have := h r hr
      split at e
      · next e' => rw [e'] at this; cases e; exact this
      · cases e

theorem terminating_free {cl : CharClasses} {rules : List Anchored} {b : Char} (h : ∀ r ∈ rules, r.rule.WithinWords b) :
    b ∉ (numConfig cl rules).terminating := by
  refine lastArg_free fun r hr cs e => ?_
  have := h r hr
  split at e
  · next e' => rw [e'] at this; cases e; exact this
  · cases e

end Louis
