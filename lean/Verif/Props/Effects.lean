import Verif.Lemmas.Multipass

/-!
# Properties C19 (variables), C20 (swaps), C45 (negated variable tests)
-/

namespace Louis

open Regexp (Fault)

/-! ## C19: variables -/

/-- What a sequence of effects on one variable does to it, on paper. `none`: not set yet; an effect that would
exceed 255 has no result. -/
inductive VarRun : Option Nat → List EffectKind → Option Nat → Prop where
  | nil (v) : VarRun v [] v
  | set (v x ks w) : VarRun (some x) ks w → VarRun v (.set x :: ks) w
  | inc (v ks w) : v.getD 0 < 255 → VarRun (some (v.getD 0 + 1)) ks w → VarRun v (.increment :: ks) w
  | dec (v ks w) : VarRun (some (v.getD 0 - 1)) ks w → VarRun v (.decrement :: ks) w

/-- The effects on variable `i`, in order. -/
def effectsOn (i : Nat) (es : List Effect) : List EffectKind := (es.filter (·.slot == i)).map (·.kind)

/-- **C19.** Each variable evolves exactly by the effects on it, independently of all others. -/
theorem C19_variable_run (i : Nat) : ∀ (es : List Effect) (env env' : Env), env.applyAll es = .ok env' →
    VarRun (env i) (effectsOn i es) (env' i) := by
  intro es
  induction es with
  | nil => intro env env' h; cases h; exact .nil _
  | cons e es ih =>
    intro env env' h
    simp only [Env.applyAll] at h
    split at h
    · cases h
    · next env1 he =>
      have := ih env1 env' h
      by_cases hs : e.slot = i
      · subst hs
        simp only [effectsOn, List.filter_cons, beq_self_eq_true, if_true, List.map_cons]
        simp only [Env.apply] at he
        cases hk : e.kind <;> rw [hk] at he <;> simp only at he
        · cases hv : env e.slot <;> rw [hv] at he <;> simp only at he
          · cases he
            refine .inc _ _ _ (by simp) ?_
            simpa [Env.put, effectsOn] using this
          · split at he
            · cases he
            · next hne =>
              cases he
              refine .inc _ _ _ (by simp only [Option.getD_some]; omega) ?_
              simpa [Env.put, effectsOn] using this
        · cases hv : env e.slot <;> rw [hv] at he <;> simp only at he
          · cases he
            refine .dec _ _ _ ?_
            simpa [Env.put, effectsOn] using this
          · cases he
            refine .dec _ _ _ ?_
            simp only [Env.put, if_true] at this
            have h2 : ∀ v : Nat, (if v > 0 then v - 1 else 0) = v - 1 := by intro v; split <;> omega
            simpa [h2, effectsOn] using this
        · cases he
          refine .set _ _ _ _ ?_
          simpa [Env.put, effectsOn] using this
      · have hf : effectsOn i (e :: es) = effectsOn i es := by simp [effectsOn, hs]
        have hi : env1 i = env i := by
          simp only [Env.apply] at he
          cases hk : e.kind <;> rw [hk] at he <;> simp only at he
          · cases hv : env e.slot <;> rw [hv] at he <;> simp only at he
            · cases he; simp [Env.put, Ne.symm hs]
            · split at he
              · cases he
              · cases he; simp [Env.put, Ne.symm hs]
          · cases hv : env e.slot <;> rw [hv] at he <;> simp only at he
            · cases he; simp [Env.put, Ne.symm hs]
            · cases he; simp [Env.put, Ne.symm hs]
          · cases he; simp [Env.put, Ne.symm hs]
        rw [hf, ← hi]
        exact this

/-- **C19.** After an assignment that is followed by no other effect on the variable, it has the assigned value. -/
theorem C19_last_assignment_wins (env env' : Env) (before after : List Effect) (i x : Nat)
    (h : env.applyAll (before ++ ⟨i, .set x⟩ :: after) = .ok env') (hafter : ∀ e ∈ after, e.slot ≠ i) :
    env' i = some x := by
  have hr := C19_variable_run i _ _ _ h
  have hn : effectsOn i after = [] := by
    simp only [effectsOn, List.map_eq_nil_iff, List.filter_eq_nil_iff, beq_iff_eq]
    exact hafter
  have he : effectsOn i (before ++ ⟨i, .set x⟩ :: after) = effectsOn i before ++ [.set x] := by
    simp only [effectsOn, List.filter_append, List.filter_cons, beq_self_eq_true, if_true, List.map_append, List.map_cons]
    rw [show (List.filter (fun e : Effect => e.slot == i) after).map (·.kind) = [] from hn]
  rw [he] at hr
  generalize env i = v at hr
  generalize env' i = w at hr ⊢
  generalize effectsOn i before = ks at hr
  induction ks generalizing v with
  | nil => cases hr with | set _ _ _ _ h => cases h; rfl
  | cons k ks ih => cases hr with
    | set _ _ _ _ h => exact ih _ h
    | inc _ _ _ _ h => exact ih _ h
    | dec _ _ _ h => exact ih _ h

/-- **C19.** Variables without effects are untouched. -/
theorem C19_frame (env env' : Env) (es : List Effect) (i : Nat) (h : env.applyAll es = .ok env')
    (hno : ∀ e ∈ es, e.slot ≠ i) : env' i = env i := by
  have hr := C19_variable_run i _ _ _ h
  have hn : effectsOn i es = [] := by
    simp only [effectsOn, List.map_eq_nil_iff, List.filter_eq_nil_iff, beq_iff_eq]
    exact hno
  rw [hn] at hr
  generalize env i = v at hr ⊢
  generalize env' i = w at hr ⊢
  cases hr
  rfl

theorem effectsOn_replicate (i : Nat) (k : EffectKind) (n : Nat) :
    effectsOn i (List.replicate n ⟨i, k⟩) = List.replicate n k := by
  induction n with
  | zero => rfl
  | succ n ih => simp [effectsOn]

/-- **C19.** `n` decrements of a variable with value `v` leave `v - n`, never below zero. -/
theorem C19_decrements (env env' : Env) (i v n : Nat) (hv : env i = some v)
    (h : env.applyAll (List.replicate n ⟨i, .decrement⟩) = .ok env') : env' i = some (v - n) := by
  have hr := C19_variable_run i _ _ _ h
  rw [effectsOn_replicate, hv] at hr
  induction n generalizing v env with
  | zero =>
    generalize env' i = w at hr ⊢
    cases hr
    rfl
  | succ n ih =>
    cases hr with
    | dec _ _ _ hr =>
      simp only [List.replicate_succ, Env.applyAll, Env.apply, hv] at h
      have := ih (env := env.put i (if v > 0 then v - 1 else 0)) (v := v - 1)
        (by simp only [Env.put, if_true]; congr 1; split <;> omega) h (by simpa using hr)
      rw [this]
      congr 1
      omega

/-- **C19.** Effects never fail except by incrementing a variable beyond 255; assignments and decrements never fail. -/
theorem C19_no_panic (env : Env) (es : List Effect) (h : ∀ e ∈ es, e.kind ≠ .increment) : ∃ env', env.applyAll es = .ok env' := by
  induction es generalizing env with
  | nil => exact ⟨env, rfl⟩
  | cons e es ih =>
    have : ∃ env1, env.apply e = .ok env1 := by
      have hk := h e (List.mem_cons_self ..)
      simp only [Env.apply]
      split
      · next hk' => exact absurd hk' hk
      · split <;> exact ⟨_, rfl⟩
      · exact ⟨_, rfl⟩
    obtain ⟨env1, h1⟩ := this
    obtain ⟨env', h'⟩ := ih env1 (fun x hx => h x (List.mem_cons_of_mem _ hx))
    exact ⟨env', by simp [Env.applyAll, h1, h']⟩

/-- Example: set variable 3 to 7, touch variable 4, decrement variable 3. -/
example : ∃ env', Env.new.applyAll [⟨3, .set 7⟩, ⟨4, .increment⟩, ⟨3, .decrement⟩] = .ok env' ∧ env' 3 = some 6 ∧
    env' 4 = some 1 := ⟨_, rfl, rfl, rfl⟩

/-! ## C20: swaps -/

/-- **C20.** Swapping is a homomorphism: each character is replaced on its own. -/
theorem C20_swap_append (s : Swapper) (a b : Text) : s.swap (a ++ b) = s.swap a ++ s.swap b := by
  simp [Swapper.swap]

/-- **C20.** A character that is not in the class is left alone. -/
theorem C20_swap_outside (s : Swapper) (c : Char) (h : ∀ m ∈ s.mappings, m.1 ≠ c) : s.swap [c] = [c] := by
  have : s.get c = none := by
    simp only [Swapper.get, Option.map_eq_none_iff, List.find?_eq_none, List.mem_reverse, beq_iff_eq]
    exact h
  simp [Swapper.swap, this]

/-- **C20.** A character in the class is replaced by its counterpart (that of its last occurrence in the class, if it
is listed several times). -/
theorem C20_swap_inside (s : Swapper) (before after : List (Char × Text)) (c : Char) (t : Text)
    (h : s.mappings = before ++ (c, t) :: after) (hlast : ∀ m ∈ after, m.1 ≠ c) : s.swap [c] = t := by
  have : s.get c = some t := by
    have hn : after.reverse.find? (·.1 == c) = none := by
      simp only [List.find?_eq_none, List.mem_reverse, beq_iff_eq]
      exact hlast
    simp [Swapper.get, h, List.find?_append, hn]
  simp [Swapper.swap, this]

example : (Swapper.mk [('a', ['1']), ('b', ['2', '3'])]).swap ['b', 'x', 'a'] = ['2', '3', 'x', '1'] := by decide

/-! ## C45: negated variable tests -/

open Regexp in
/-- **C45, for a variable that has been set**: exactly one of a variable test and its negation holds. -/
theorem C45_negated_test_partial (lower : Char → List Char) (env : Env) (atStart : Bool) (slot x v : Nat)
    (hv : env slot = some v) (s : St) :
    (∃ r, negate (.varEq slot x) = some r ∧
      ((∃ s', Matches lower env atStart r s s') ↔ ¬ ∃ s', Matches lower env atStart (.varEq slot x) s s')) := by
  refine ⟨.notVarEq slot x, rfl, ?_⟩
  simp only [Matches, MatchesWith, hv, Option.some.injEq]
  constructor
  · rintro ⟨s', ⟨w, rfl, hne⟩, rfl⟩ ⟨s'', h, -⟩
    exact hne h
  · intro h
    exact ⟨s, ⟨v, rfl, fun e => h ⟨s, e, rfl⟩⟩, rfl⟩

open Regexp in
/-- **C45 is false of the code** as long as the variable has not been set: neither the test nor its negation matches,
for any value and any text.  (In liblouis variables start at 0.) -/
theorem C45_unset_variable_wrong {τ : Type} (payload : τ) (lower : Char → List Char) (atStart : Bool) (slot x : Nat)
    (input : Text) :
    ∃ r, negate (.varEq slot x) = some r ∧
      findAnchored (compile (.varEq slot x) payload) lower input Env.new atStart = .ok none ∧
      findAnchored (compile r payload) lower input Env.new atStart = .ok none := by
  refine ⟨.notVarEq slot x, rfl, ?_, ?_⟩
  · obtain ⟨res, e, -, h⟩ := findAnchored_spec (.varEq slot x) payload lower input Env.new atStart
    cases res with
    | none => exact e
    | some f =>
      obtain ⟨_, _, _, _, ⟨h, -⟩, -⟩ := h f rfl
      simp [Env.new] at h
  · obtain ⟨res, e, -, h⟩ := findAnchored_spec (.notVarEq slot x) payload lower input Env.new atStart
    cases res with
    | none => exact e
    | some f =>
      obtain ⟨_, _, _, _, ⟨h, -⟩, -⟩ := h f rfl
      simp [Env.new] at h

end Louis
