import Verif.Spec.Pipeline
import Verif.Lemmas.Pipeline
import Verif.Lemmas.Trie

/-!
# What the compilation yields is one of the pipelines of `Pipeline.Compiles`
-/

namespace Louis

theorem sameEntries_insertAll {ctx : CharClasses} {d : Direction} {rs : List TrieRule} {t : Trie}
    (h : Trie.insertAll ctx d rs Trie.empty = some t) : t.SameEntries t := ⟨(insertAll_spec h map_empty).1, fun _ => rfl⟩

theorem contractionTrie_same {ctx : TableCtx} {dots : Text} {o : Origin} {cs : List Text} {t : Trie}
    (h : contractionTrie ctx dots o cs = .ok t) : t.SameEntries t := by
  unfold contractionTrie orPanic at h
  split at h
  · next e => injection h with h; subst h; exact sameEntries_insertAll e
  · cases h

theorem primary_same {sys : Sys} {ctx : TableCtx} {d : Direction} {rules : List Anchored} {p : Primary}
    (h : Primary.compile sys ctx d rules = .ok p) : p.Same p := by
  have hp := compile_compiled h
  have inv := buildInv_all (buildInv_new _ _) hp.table
  obtain ⟨s, -, hi, -, -⟩ := hp.signs
  refine ⟨⟨sameEntries_insertAll inv.trie, sameEntries_insertAll inv.comp6, sameEntries_insertAll inv.nocross, rfl⟩, ?_, ?_, rfl, rfl⟩
  · unfold Signs.indicators at hi
    split at hi
    · cases hi
    · next letsign hl =>
      split at hi
      · cases hi
      · injection hi with hi
        rw [← hi]
        unfold Signs.letIndicator at hl
        split at hl
        · injection hl with hl; subst hl; trivial
        · split at hl
          · cases hl
          · next e => injection hl with hl; subst hl; exact ⟨contractionTrie_same e, rfl⟩
  · unfold Signs.indicators at hi
    split at hi
    · cases hi
    · split at hi
      · cases hi
      · next nocontract hn =>
        injection hi with hi
        rw [← hi]
        unfold Signs.nocIndicator at hn
        split at hn
        · injection hn with hn; subst hn; trivial
        · split at hn
          · injection hn with hn; subst hn; trivial
          · split at hn
            · cases hn
            · next e => injection hn with hn; subst hn; exact ⟨contractionTrie_same e, rfl⟩

theorem sameSteps_refl : ∀ {l : List Transform}, (∀ p, Transform.primary p ∈ l → p.Same p) → SameSteps l l
  | [], _ => .nil
  | t :: l, h => .cons (by
      cases t with
      | pre t => exact .pre t
      | primary p => exact .primary (h p (List.mem_cons_self ..))
      | post t => exact .post t) (sameSteps_refl fun p hp => h p (List.mem_cons_of_mem _ hp))

theorem compileStage_notPrimary {ctx : TableCtx} {d : Direction} {st : Stage} {mk : MultipassTable → Transform} {rules : List PassRule}
    {l : List Transform} (h : compileStage ctx d st mk rules = .ok l) (hmk : ∀ t p, mk t ≠ .primary p) : ∀ p, Transform.primary p ∉ l := by
  intro p hp
  unfold compileStage at h
  repeat' split at h
  all_goals first
    | (cases h; cases hp; done)
    | (cases h; exact hmk _ p (List.mem_singleton.mp hp).symm)
    | (cases h; done)

/-- The pipeline that is compiled is one of those of `Pipeline.Compiles`. -/
theorem compile_compiles {sys : Sys} {rules : List Anchored} {d : Direction} {steps : List Transform}
    (h : Pipeline.compile sys rules d = .ok steps) : Pipeline.Compiles sys rules d steps := by
  refine ⟨steps, h, sameSteps_refl fun p hp => ?_⟩
  unfold Pipeline.compile at h
  simp only at h
  split at h
  · cases h
  · next correct h1 =>
    split at h
    · cases h
    · next primary h2 =>
      split at h
      · cases h
      · next pass2 h3 =>
        split at h
        · cases h
        · next pass3 h4 =>
          split at h
          · cases h
          · next pass4 h5 =>
            injection h with h
            have hp' : Transform.primary p ∈ correct ++ [.primary primary] ++ pass2 ++ pass3 ++ pass4 := by
              rw [← h] at hp
              cases d
              · exact hp
              · exact List.mem_reverse.mp hp
            simp only [List.mem_append, List.mem_singleton] at hp'
            rcases hp' with (((hp | hp) | hp) | hp) | hp
            · exact absurd hp (compileStage_notPrimary h1 (fun _ _ h => nomatch h) p)
            · injection hp with hp
              subst hp
              exact primary_same h2
            · exact absurd hp (compileStage_notPrimary h3 (fun _ _ h => nomatch h) p)
            · exact absurd hp (compileStage_notPrimary h4 (fun _ _ h => nomatch h) p)
            · exact absurd hp (compileStage_notPrimary h5 (fun _ _ h => nomatch h) p)

end Louis
