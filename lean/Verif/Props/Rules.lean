import Verif.Lemmas.Rules
import Verif.Lemmas.MatchPattern

/-!
# C52: what multipass rules do; C53: what match rules do
-/

namespace Louis

open Regexp (MatchesWith St Eats EatsAll Iter utf8Len Regexp findAnchored Found codeRange utf8Len_append utf8Len_eq_zero)

/-! ## C52: tests -/

/-- The instructions covered by the theorem.  Excluded: `{min,max}` counts (wrong in the code, see C02), the attributes
`$a` and `$w`-`$z` (they match nothing in the code, `C52_any_attribute_wrong`), negated strings of more than one character
(`C52_negated_string_wrong`), negated tests of a variable that has not been set (C45). -/
def Supported (env : Env) : TestInstr → Prop
  | .attributes as q => OnlyClasses as ∧ ∀ a b, q ≠ some (.range a b)
  | .cls _ q => ∀ a b, q ≠ some (.range a b)
  | .negate (.string s) | .negate (.dots s) => s.length = 1
  | .negate (.attributes as q) => OnlyClasses as ∧ ∀ a b, q ≠ some (.range a b)
  | .negate (.cls _ q) => ∀ a b, q ≠ some (.range a b)
  | .negate (.varTest v _ _) => env v ≠ none
  | .negate .atBeginning | .negate .atEnd => True
  | .negate _ => False
  | .replace _ => False
  | _ => True

variable {rng : Nat → Nat → Nat → Prop} {lower : Char → List Char} {env : Env} {atStart : Bool} {ctx : CharClasses}

theorem describes_instr (t : TestInstr) (h : Supported env t) (r : Regexp) (hr : fromInstr ctx t = some r) :
    Describes (MatchesWith rng lower env atStart r) (Reads ctx env atStart t) := by
  cases t with
  | lookback n => simp only [fromInstr, Option.some.injEq] at hr; subst hr; simp only [Reads]; exact describes_empty
  | varTest v op o =>
    cases op <;> simp only [fromInstr, Option.some.injEq, reduceCtorEq] at hr
    subst hr
    simp only [Reads]
    refine describes_here (C := fun _ => env v = some o) (fun _ _ => Iff.rfl) fun _ _ _ => ?_
    simp [Operator.holds]
  | string s => simp only [fromInstr, Option.some.injEq] at hr; subst hr; simp only [Reads]; exact describes_string s
  | dots s => simp only [fromInstr, Option.some.injEq] at hr; subst hr; simp only [Reads]; exact describes_string s
  | attributes as q =>
    simp only [fromInstr, Option.some.injEq] at hr; subst hr
    simp only [Reads]
    exact describes_quantified _ _ (mem_attributes ctx as h.1) q h.2
  | cls n q =>
    simp only [fromInstr, Option.some.injEq] at hr; subst hr
    simp only [Reads]
    exact describes_quantified _ _ (classes_mem_get ctx _) q h
  | replace ts => exact h.elim
  | atBeginning => simp only [fromInstr, Option.some.injEq] at hr; subst hr; simp only [Reads]; exact describes_startAnchor
  | atEnd => simp only [fromInstr, Option.some.injEq] at hr; subst hr; simp only [Reads]; exact describes_endAnchor
  | negate t =>
    simp only [Reads]
    cases t with
    | lookback n => exact h.elim
    | varTest v op o =>
      cases op <;> simp only [fromInstr, Option.bind_some, Option.bind_none, reduceCtorEq, Regexp.negate, Option.some.injEq] at hr
      subst hr
      refine describes_here (C := fun _ => ∃ a, env v = some a ∧ a ≠ o) (fun _ _ => Iff.rfl) fun _ _ _ => ?_
      have h : env v ≠ none := h
      cases hv : env v with
      | none => exact absurd hv h
      | some a => simp [Operator.holds]
    | string s =>
      simp only [fromInstr, Option.bind_some, Regexp.negate, Option.some.injEq] at hr
      subst hr
      have h : s.length = 1 := h
      match s, h with
      | [e], _ => exact describes_notChar e
    | dots s =>
      simp only [fromInstr, Option.bind_some, Regexp.negate, Option.some.injEq] at hr
      subst hr
      have h : s.length = 1 := h
      match s, h with
      | [e], _ => exact describes_notChar e
    | attributes as q =>
      simp only [fromInstr, Option.bind_some] at hr
      exact describes_notQuantified _ _ (mem_attributes ctx as h.1) q h.2 r hr
    | cls n q =>
      simp only [fromInstr, Option.bind_some] at hr
      exact describes_notQuantified _ _ (classes_mem_get ctx _) q h r hr
    | negate t => exact h.elim
    | replace ts => exact h.elim
    | atBeginning =>
      simp only [fromInstr, Option.bind_some, Regexp.negate, Option.some.injEq] at hr; subst hr; exact describes_notStartAnchor
    | atEnd =>
      simp only [fromInstr, Option.bind_some, Regexp.negate, Option.some.injEq] at hr; subst hr; exact describes_notEndAnchor

/-- The states gone through by a list of instructions. -/
def Chain (rng : Nat → Nat → Nat → Prop) (lower : Char → List Char) (env : Env) (atStart : Bool) (ctx : CharClasses) :
    List TestInstr → St → St → Prop
  | [], s, s' => s' = s
  | t :: ts, s, s' => ∃ r u, fromInstr ctx t = some r ∧ MatchesWith rng lower env atStart r s u ∧ Chain rng lower env atStart ctx ts u s'

theorem fromRest_chain : ∀ (ts : List TestInstr) (acc r : Regexp), fromRest ctx acc ts = some r → ∀ s s',
    (MatchesWith rng lower env atStart r s s' ↔
      ∃ u, MatchesWith rng lower env atStart acc s u ∧ Chain rng lower env atStart ctx ts u s')
  | [], acc, r, h, s, s' => by
    simp only [fromRest, Option.some.injEq] at h
    subst h
    simp [Chain]
  | t :: ts, acc, r, h, s, s' => by
    simp only [fromRest, Option.bind_eq_some_iff] at h
    obtain ⟨x, hx, h⟩ := h
    rw [fromRest_chain ts _ r h]
    simp only [MatchesWith, Chain]
    constructor
    · rintro ⟨u, ⟨v, h1, h2⟩, h3⟩; exact ⟨v, h1, x, u, hx, h2, h3⟩
    · rintro ⟨v, h1, x', u, hx', h2, h3⟩
      rw [hx] at hx'; cases hx'
      exact ⟨u, ⟨v, h1, h2⟩, h3⟩

theorem fromInstrs_chain (ts : List TestInstr) (r : Regexp) (h : fromInstrs ctx ts = some r) (s s' : St) :
    MatchesWith rng lower env atStart r s s' ↔ Chain rng lower env atStart ctx ts s s' := by
  cases ts with
  | nil => simp only [fromInstrs, Option.some.injEq] at h; subst h; simp [Chain, MatchesWith]
  | cons t ts =>
    simp only [fromInstrs, Option.bind_eq_some_iff] at h
    obtain ⟨x, hx, h⟩ := h
    rw [fromRest_chain ts x r h]
    simp only [Chain]
    constructor
    · rintro ⟨u, h1, h2⟩; exact ⟨x, u, hx, h1, h2⟩
    · rintro ⟨x', u, hx', h1, h2⟩
      rw [hx] at hx'; cases hx'
      exact ⟨u, h1, h2⟩

theorem chain_append : ∀ (as bs : List TestInstr) (s s' : St), Chain rng lower env atStart ctx (as ++ bs) s s' ↔
    ∃ u, Chain rng lower env atStart ctx as s u ∧ Chain rng lower env atStart ctx bs u s'
  | [], bs, s, s' => by simp [Chain]
  | a :: as, bs, s, s' => by
    simp only [List.cons_append, Chain, chain_append as bs]
    constructor
    · rintro ⟨r, u, h1, h2, v, h3, h4⟩; exact ⟨v, ⟨r, u, h1, h2, h3⟩, h4⟩
    · rintro ⟨v, ⟨r, u, h1, h2, h3⟩, h4⟩; exact ⟨r, u, h1, h2, v, h3, h4⟩

/-- Every instruction can be compiled. -/
def Compiles (ctx : CharClasses) (ts : List TestInstr) : Prop := ∀ t ∈ ts, fromInstr ctx t ≠ none

theorem fromRest_compiles : ∀ (ts : List TestInstr) (acc r : Regexp), fromRest ctx acc ts = some r → Compiles ctx ts
  | [], _, _, _ => by intro t ht; cases ht
  | t :: ts, acc, r, h => by
    simp only [fromRest, Option.bind_eq_some_iff] at h
    obtain ⟨x, hx, h⟩ := h
    intro t' ht'
    rcases List.mem_cons.1 ht' with rfl | ht'
    · rw [hx]; simp
    · exact fromRest_compiles ts _ r h t' ht'

theorem fromInstrs_compiles (ts : List TestInstr) (r : Regexp) (h : fromInstrs ctx ts = some r) : Compiles ctx ts := by
  cases ts with
  | nil => intro t ht; cases ht
  | cons t ts =>
    simp only [fromInstrs, Option.bind_eq_some_iff] at h
    obtain ⟨x, hx, h⟩ := h
    intro t' ht'
    rcases List.mem_cons.1 ht' with rfl | ht'
    · rw [hx]; simp
    · exact fromRest_compiles ts _ r h t' ht'

theorem describes_chain : ∀ (ts : List TestInstr), (∀ t ∈ ts, Supported env t) → Compiles ctx ts →
    Describes (Chain rng lower env atStart ctx ts) (ReadsAll ctx env atStart ts)
  | [], _, _ => by
    simp only [ReadsAll]
    refine describes_congr describes_eq fun pre m post => ?_
    simp [Reading.here]
  | t :: ts, h, hc => by
    simp only [ReadsAll]
    cases hr : fromInstr ctx t with
    | none => exact absurd hr (hc t (List.mem_cons_self ..))
    | some r =>
      have h1 := describes_instr (rng := rng) (lower := lower) (atStart := atStart) t (h t (List.mem_cons_self ..)) r hr
      have h2 := describes_chain ts (fun x hx => h x (List.mem_cons_of_mem _ hx)) (fun x hx => hc x (List.mem_cons_of_mem _ hx))
      have := describes_seq h1 h2
      intro pre s s' hp
      rw [← this pre s s' hp]
      simp only [Chain]
      constructor
      · rintro ⟨r', u, h3, h4, h5⟩; rw [hr] at h3; cases h3; exact ⟨u, h4, h5⟩
      · rintro ⟨u, h4, h5⟩; exact ⟨r, u, hr, h4, h5⟩

theorem prefix_utf8 : ∀ {a b c d : Text}, a ++ b = c ++ d → utf8Len a = utf8Len c → a = c := by
  intro a
  induction a with
  | nil => intro b c d _ h2; simp only [Regexp.utf8Len] at h2; exact (utf8Len_eq_zero.1 h2.symm).symm
  | cons x xs ih =>
    intro b c d h1 h2
    cases c with
    | nil => exact utf8Len_eq_zero.1 h2
    | cons y ys =>
      simp only [List.cons_append, List.cons.injEq] at h1
      obtain ⟨rfl, h1⟩ := h1
      simp only [Regexp.utf8Len] at h2
      rw [ih h1 (by omega)]

/-- The test reads the text here: `x` as the part before the brackets, `y` as the bracketed part, `z` as the part after. -/
structure TestReads (ctx : CharClasses) (env : Env) (atStart : Bool) (before inside after : List TestInstr) (input : Text)
    (x y z : Text) : Prop where
  ex : ∃ rest, input = x ++ y ++ z ++ rest ∧ ReadsAll ctx env atStart before [] x (y ++ z ++ rest) ∧
    ReadsAll ctx env atStart inside x y (z ++ rest) ∧ ReadsAll ctx env atStart after (x ++ y) z rest

theorem parts_compiled {test before inside after : List TestInstr} (hp : Parts test before inside after)
    (hs : ∀ t ∈ before ++ inside ++ after, Supported env t) :
    addImplicitReplace test = before ++ .replace inside :: after := by
  cases hp with
  | bracket =>
    unfold addImplicitReplace
    rw [if_pos]
    simp
  | whole _ h =>
    unfold addImplicitReplace
    rw [if_neg]
    · rfl
    · simp only [List.any_eq_true, not_exists, not_and]
      intro t ht
      cases t <;> simp
      exact absurd ht (h _)

theorem chain_bracket (before inside after : List TestInstr) (s s' : St) :
    Chain rng lower env atStart ctx (before ++ .replace inside :: after) s s' →
    ∃ t1 t2, Chain rng lower env atStart ctx before s t1 ∧
      Chain rng lower env atStart ctx inside { t1 with cap := (t1.sp, 0) } t2 ∧
      Chain rng lower env atStart ctx after { t2 with cap := (t2.cap.1, t2.sp) } s' := by
  rw [chain_append]
  rintro ⟨t1, h1, r, u, hr, h2, h3⟩
  simp only [fromInstr, Option.map_eq_some_iff] at hr
  obtain ⟨r', hr', rfl⟩ := hr
  obtain ⟨t2, h4, rfl⟩ := h2
  exact ⟨t1, t2, h1, (fromInstrs_chain inside r' hr' _ _).1 h4, h3⟩

theorem chain_bracket' {before inside after : List TestInstr} {r' : Regexp} (hr : fromInstrs ctx inside = some r') (s t1 t2 s' : St)
    (h1 : Chain rng lower env atStart ctx before s t1)
    (h2 : Chain rng lower env atStart ctx inside { t1 with cap := (t1.sp, 0) } t2)
    (h3 : Chain rng lower env atStart ctx after { t2 with cap := (t2.cap.1, t2.sp) } s') :
    Chain rng lower env atStart ctx (before ++ .replace inside :: after) s s' := by
  rw [chain_append]
  refine ⟨t1, h1, .capture r', _, by simp [fromInstr, hr], ⟨t2, (fromInstrs_chain inside r' hr _ _).2 h2, rfl⟩, h3⟩

/-- The actions covered by the theorem: `#n+` and `#n-` are excluded (they can be represented but have no effect in the
code; the parser never produces them, see C36). -/
def NoStep (action : List ActionInstr) : Prop := ∀ a ∈ action, ∀ v, a ≠ .increment v ∧ a ≠ .decrement v

theorem writes_targets {swaps : SwapClasses} (y : Text) : ∀ {as : List ActionInstr} {ts : List Target},
    targetsOf swaps as = .ok ts → Writes swaps y as (ts.flatMap (·.resolve y))
  | [], ts, h => by cases h; exact .nil
  | a :: as, ts, h => by
    simp only [targetsOf] at h
    split at h
    · cases h
    · next t ht =>
      split at h
      · cases h
      · next ts' hts =>
        cases h
        have ih := writes_targets y hts
        rw [List.flatMap_cons]
        cases a <;> simp only [targetOf, Except.ok.injEq] at ht
        · subst ht; exact .string _ _ _ ih
        · subst ht; exact .dots _ _ _ ih
        · split at ht
          · next s hs => simp only [Except.ok.injEq] at ht; subst ht; exact .swap _ _ _ _ hs ih
          · cases ht
        · subst ht; exact .assignment _ _ _ _ ih
        · subst ht; exact .increment _ _ _ ih
        · subst ht; exact .decrement _ _ _ ih
        · subst ht; exact .replace _ _ ih
        · subst ht; exact .ignore _ _ ih

theorem asks_effects : ∀ {as : List ActionInstr}, NoStep as → Asks as (effectsOf as)
  | [], _ => .nil
  | a :: as, h => by
    have ih := asks_effects (as := as) fun b hb => h b (List.mem_cons_of_mem _ hb)
    have ha := h a (List.mem_cons_self ..)
    cases a
    · exact .string _ _ _ ih
    · exact .dots _ _ _ ih
    · exact .swap _ _ _ ih
    · exact .assignment _ _ _ _ ih
    · exact absurd rfl (ha _).1
    · exact absurd rfl (ha _).2
    · exact .replace _ _ ih
    · exact .ignore _ _ ih

/-- **C52.** A rule matches at the start of `input` exactly when its test reads the text there; what it then replaces is a
stretch `y` read by the bracketed part, found directly after a stretch `x` read by the part before; the replacement is what
the actions write for `y`, and the variable updates are those the actions ask for, in order.  (Partial: see `Supported` and
`NoStep` for the instructions left out.) -/
theorem C52_rule_semantics_partial (ctx : CharClasses) (swaps : SwapClasses) (stage : Stage) (prec : Prec) (origin : Origin)
    (test : List TestInstr) (action : List ActionInstr) (p : Regexp.Compiled Translation)
    (hc : compilePattern ctx swaps stage prec origin test action = .ok p)
    (before inside after : List TestInstr) (hparts : Parts test before inside after)
    (lower : Char → List Char) (input : Text) (env : Env) (atStart : Bool)
    (hs : ∀ t ∈ before ++ inside ++ after, Supported env t) (ha : NoStep action) :
    ((∃ f, findAnchored p lower input env atStart = .ok (some f)) ↔
      ∃ x y z, TestReads ctx env atStart before inside after input x y z) ∧
    ∀ f, findAnchored p lower input env atStart = .ok (some f) →
      ∃ x y z out es, TestReads ctx env atStart before inside after input x y z ∧ f.length = (x ++ y ++ z).length ∧
        Writes swaps y action out ∧ Asks action es ∧
        f.payload.resolve f.capture f.length f.offset =
          { input := y, output := out, length := y.length, weight := (x ++ y ++ z).length, offset := x.length, prec, stage,
            effects := es, origin := some origin } := by
  unfold compilePattern at hc
  split at hc
  · cases hc
  · next targets htargets =>
    split at hc
    · cases hc
    · next r hr =>
      simp only [Except.ok.injEq] at hc
      subst hc
      rw [parts_compiled hparts hs] at hr
      have hcomp := fromInstrs_compiles _ r hr
      have hcb : Compiles ctx before := fun t ht => hcomp t (by simp [ht])
      have hca : Compiles ctx after := fun t ht => hcomp t (by simp [ht])
      have hin : ∃ r', fromInstrs ctx inside = some r' := by
        have := hcomp (.replace inside) (by simp)
        cases h : fromInstrs ctx inside with
        | none => simp [fromInstr, h] at this
        | some r' => exact ⟨r', rfl⟩
      obtain ⟨r', hr'⟩ := hin
      have hci := fromInstrs_compiles inside r' hr'
      have db := describes_chain (rng := codeRange) (lower := lower) (atStart := atStart) before (fun t ht => hs t (by simp [ht])) hcb
      have di := describes_chain (rng := codeRange) (lower := lower) (atStart := atStart) inside (fun t ht => hs t (by simp [ht])) hci
      have da := describes_chain (rng := codeRange) (lower := lower) (atStart := atStart) after (fun t ht => hs t (by simp [ht])) hca
      -- from a match to a reading
      have sound : ∀ s', MatchesWith codeRange lower env atStart r (St.init input) s' →
          ∃ x y z, TestReads ctx env atStart before inside after input x y z ∧ input = x ++ y ++ z ++ s'.rest ∧
            s'.cap = (utf8Len x, utf8Len (x ++ y)) := by
        intro s' hM
        obtain ⟨t1, t2, h1, h2, h3⟩ := chain_bracket _ _ _ _ _ ((fromInstrs_chain _ r hr _ _).1 hM)
        obtain ⟨x, mx, hx⟩ := (db [] _ _ rfl).1 h1
        have hpx : utf8Len x = t1.sp := by have := mx.2.1; simp only [St.init] at this; omega
        obtain ⟨y, my, hy⟩ := (di x { t1 with cap := (t1.sp, 0) } t2 hpx).1 h2
        have hpy : utf8Len (x ++ y) = t2.sp := moves_pre (s := { t1 with cap := (t1.sp, 0) }) hpx my
        obtain ⟨z, mz, hz⟩ := (da (x ++ y) { t2 with cap := (t2.cap.1, t2.sp) } s' hpy).1 h3
        have e3 : t2.rest = z ++ s'.rest := mz.1
        have e2 : t1.rest = y ++ t2.rest := my.1
        have e1 : input = x ++ t1.rest := mx.1
        have ecap : s'.cap = (t2.cap.1, t2.sp) := mz.2.2
        have ecap2 : t2.cap = (t1.sp, 0) := my.2.2
        rw [e2, e3] at hx
        rw [e3] at hy
        rw [e2, e3] at e1
        refine ⟨x, y, z, ⟨s'.rest, by simp [e1], by simpa using hx, hy, hz⟩, by simp [e1], ?_⟩
        rw [ecap, ecap2, ← hpx, ← hpy]
      constructor
      · constructor
        · rintro ⟨f, hf⟩
          obtain ⟨res, e, -, hsd⟩ := Regexp.findAnchored_spec r
            (Translation.unresolved ⟨targets, prec, stage, effectsOf action, some origin⟩) lower input env atStart
          rw [hf] at e; cases e
          obtain ⟨s', _, _, _, hM, _⟩ := hsd f rfl
          obtain ⟨x, y, z, h, _⟩ := sound s' hM
          exact ⟨x, y, z, h⟩
        · rintro ⟨x, y, z, ⟨rest, e, h1, h2, h3⟩⟩
          obtain ⟨res, e', hcm, -⟩ := Regexp.findAnchored_spec r
            (Translation.unresolved ⟨targets, prec, stage, effectsOf action, some origin⟩) lower input env atStart
          have : ∃ s', MatchesWith codeRange lower env atStart r (St.init input) s' := by
            have m1 : Moves (St.init input) ⟨utf8Len x, y ++ z ++ rest, (0, 0)⟩ x := ⟨by simp [St.init, e], by simp [St.init], rfl⟩
            have m2 : Moves ⟨utf8Len x, y ++ z ++ rest, (utf8Len x, 0)⟩ ⟨utf8Len (x ++ y), z ++ rest, (utf8Len x, 0)⟩ y :=
              ⟨by simp, by simp [utf8Len_append], rfl⟩
            have m3 : Moves ⟨utf8Len (x ++ y), z ++ rest, (utf8Len x, utf8Len (x ++ y))⟩
              ⟨utf8Len (x ++ y ++ z), rest, (utf8Len x, utf8Len (x ++ y))⟩ z :=
              ⟨by simp, by simp [utf8Len_append, Nat.add_assoc], rfl⟩
            refine ⟨_, (fromInstrs_chain _ r hr _ _).2 (chain_bracket' hr' (St.init input) _ _ _
              ((db [] _ _ rfl).2 ⟨x, m1, h1⟩) ((di x _ _ ?_).2 ⟨y, m2, h2⟩) ((da (x ++ y) _ _ ?_).2 ⟨z, m3, h3⟩))⟩
            · rfl
            · rfl
          have := hcm this
          cases res with
          | none => cases this
          | some f => exact ⟨f, e'⟩
      · intro f hf
        obtain ⟨res, e, -, hsd⟩ := Regexp.findAnchored_spec r
          (Translation.unresolved ⟨targets, prec, stage, effectsOf action, some origin⟩) lower input env atStart
        rw [hf] at e; cases e
        obtain ⟨s', before', after', consumed, hM, h1, h2, h3, h4, h5, h6⟩ := hsd f rfl
        obtain ⟨x, y, z, hT, e1, e2⟩ := sound s' hM
        rw [e2] at h5
        simp only [Prod.mk.injEq] at h5
        have hx : x = before' := by
          refine prefix_utf8 (b := y ++ z ++ s'.rest) (d := f.capture ++ after' ++ s'.rest) ?_ h5.1
          rw [h1, h3] at e1; simpa using e1.symm
        subst hx
        have hy : x ++ y = x ++ f.capture := by
          refine prefix_utf8 (b := z ++ s'.rest) (d := after' ++ s'.rest) ?_ h5.2
          rw [h1, h3] at e1; simpa using e1.symm
        have hy : y = f.capture := List.append_cancel_left hy
        subst hy
        have hlen : f.length = (x ++ f.capture ++ z).length := by
          rw [h2]
          rw [h1] at e1
          exact congrArg List.length (List.append_cancel_right e1)
        refine ⟨x, f.capture, z, _, _, hT, hlen, writes_targets f.capture htargets, asks_effects ha, ?_⟩
        rw [h6, h4, hlen]
        rfl


/-- `$a` stands for any character, but in the code it matches nothing: the rule `$a` `@1` is never applied. -/
theorem C52_any_attribute_wrong :
    (∃ x y z, TestReads [] Env.new true [] [.attributes [.any] none] [] ['a'] x y z) ∧
    ∃ p, compilePattern [] [] .pre .default ⟨.other, 0⟩ [.attributes [.any] none] [.string ['b']] = .ok p ∧
      findAnchored p (fun c => [c]) ['a'] Env.new true = .ok none := by
  refine ⟨⟨[], ['a'], [], ⟨[], rfl, ?_, ?_, ?_⟩⟩, _, rfl, by rfl⟩
  · exact ⟨rfl, trivial⟩
  · exact ⟨['a'], [], rfl, ⟨rfl, fun c _ => .inl (by simp)⟩, rfl, trivial⟩
  · exact ⟨rfl, trivial⟩

/-- `!"ab"` stands for two characters other than "ab", but "ax" is not accepted by the code: every single character has to
differ. -/
theorem C52_negated_string_wrong :
    (∃ x y z, TestReads [] Env.new true [] [.negate (.string ['a', 'b'])] [] ['a', 'x'] x y z) ∧
    ∃ p, compilePattern [] [] .pre .default ⟨.other, 0⟩ [.negate (.string ['a', 'b'])] [.string ['c']] = .ok p ∧
      findAnchored p (fun c => [c]) ['a', 'x'] Env.new true = .ok none := by
  refine ⟨⟨[], ['a', 'x'], [], ⟨[], rfl, ?_, ?_, ?_⟩⟩, _, rfl, by rfl⟩
  · exact ⟨rfl, trivial⟩
  · exact ⟨['a', 'x'], [], rfl, ⟨rfl, by decide⟩, rfl, trivial⟩
  · exact ⟨rfl, trivial⟩

set_option maxRecDepth 10000 in
/-- A case that meets the hypotheses of `C52_rule_semantics_partial` and matches: `"a"[$d.]!"c"` on "a12d". -/
example : ∃ p, compilePattern [(.digit, '1'), (.digit, '2')] [] .pre .default ⟨.other, 0⟩
      [.string ['a'], .replace [.attributes [.cls .digit] (some .oneOrMore)], .negate (.string ['c'])]
      [.string ['x'], .replace, .assignment 1 2] = .ok p ∧
    Parts [.string ['a'], .replace [.attributes [.cls .digit] (some .oneOrMore)], .negate (.string ['c'])]
      [.string ['a']] [.attributes [.cls .digit] (some .oneOrMore)] [.negate (.string ['c'])] ∧
    (∀ t ∈ [TestInstr.string ['a']] ++ [.attributes [.cls .digit] (some .oneOrMore)] ++ [.negate (.string ['c'])],
      Supported Env.new t) ∧
    ∃ f, findAnchored p (fun c => [c]) "a12d".toList Env.new true = .ok (some f) ∧ f.capture = "12".toList ∧
      f.length = 4 ∧ f.offset = 1 ∧ (f.payload.resolve f.capture f.length f.offset).output = "x12".toList := by
  refine ⟨_, rfl, Parts.bracket [.string ['a']] _ _, ?_, _, rfl, rfl, rfl, rfl, rfl⟩
  intro t ht
  simp only [List.cons_append, List.nil_append, List.mem_cons, List.not_mem_nil, or_false] at ht
  rcases ht with rfl | rfl | rfl
  · trivial
  · exact ⟨by intro a ha; simp at ha; exact ⟨_, ha⟩, by intro a b h; cases h⟩
  · rfl

/-! ## C53: match rules -/

mutual
/-- The patterns covered by the theorem.  Excluded: the attribute `a` (matches nothing in the code) and the negation of
anything but a single character, a set, attributes or the boundary. -/
def PSupported : Pattern → Prop
  | .attributes as | .attributesOrBoundary as _ => OnlyClasses as
  | .group ps => PAllSupported ps
  | .negate (.characters s) => s.length = 1
  | .negate (.set _) => True
  | .negate (.attributes as) => OnlyClasses as
  | .negate (.boundary _) => True
  | .negate _ => False
  | .optional p | .zeroOrMore p | .oneOrMore p => PSupported p
  | .either l r => PAllSupported l ∧ PAllSupported r
  | _ => True
/-- All patterns of the list are covered. -/
def PAllSupported : List Pattern → Prop
  | [] => True
  | p :: ps => PSupported p ∧ PAllSupported ps
end

theorem mem_matchAttributes : ∀ (as : List Attr) (cs : List Char), OnlyClasses as → matchAttributes ctx as = some cs →
    ∀ c, c ∈ cs ↔ HasAttr ctx as c
  | [], cs, _, h, c => by cases h; simp [HasAttr]
  | a :: as, cs, ho, h, c => by
    obtain ⟨k, rfl⟩ := ho a (List.mem_cons_self ..)
    simp only [matchAttributes, Option.map_eq_some_iff] at h
    obtain ⟨cs', h', rfl⟩ := h
    have hoas : OnlyClasses as := fun b hb => ho b (List.mem_cons_of_mem _ hb)
    rw [List.mem_append, classes_mem_get, mem_matchAttributes as cs' hoas h' c]
    unfold HasAttr
    constructor
    · rintro (h | h | ⟨k', h1, h2⟩)
      · exact .inr ⟨k, List.mem_cons_self .., h⟩
      · exact .inl (List.mem_cons_of_mem _ h)
      · exact .inr ⟨k', List.mem_cons_of_mem _ h1, h2⟩
    · rintro (h | ⟨k', h1, h2⟩)
      · rcases List.mem_cons.1 h with h | h
        · cases h
        · exact .inr (.inl h)
      · rcases List.mem_cons.1 h1 with h | h
        · cases h; exact .inl h2
        · exact .inr (.inr ⟨k', h, h2⟩)

theorem describes_boundary (side : Side) : Describes (MatchesWith rng lower env atStart (boundaryAnchor side)) (ReadsBoundary atStart side) := by
  cases side
  · exact describes_startAnchor
  · exact describes_endAnchor

theorem seq_assoc (R S T : Reading) (pre m post : Text) :
    Reading.seq (Reading.seq R S) T pre m post ↔ Reading.seq R (Reading.seq S T) pre m post := by
  unfold Reading.seq
  constructor
  · rintro ⟨_, c, rfl, ⟨a, b, rfl, h1, h2⟩, h3⟩
    exact ⟨a, b ++ c, by simp, by simpa using h1, b, c, rfl, h2, by simpa using h3⟩
  · rintro ⟨a, _, rfl, h1, b, c, rfl, h2, h3⟩
    exact ⟨a ++ b, c, by simp, ⟨a, b, rfl, by simpa using h1, h2⟩, by simpa using h3⟩

theorem seq_here (R : Reading) (pre m post : Text) : Reading.seq R (.here fun _ _ => True) pre m post ↔ R pre m post := by
  unfold Reading.seq Reading.here
  constructor
  · rintro ⟨a, b, rfl, h, rfl, _⟩; simpa using h
  · intro h; exact ⟨m, [], by simp, by simpa using h, rfl, trivial⟩

theorem describes_cls (cs : List Char) (p : Char → Prop) (hp : ∀ c, c ∈ cs ↔ p c) :
    Describes (MatchesWith rng lower env atStart (.cls cs)) (.one p) :=
  describes_congr (describes_eats (· ∈ cs)) fun pre m post => by simp only [Reading.one, hp]

theorem describes_notCls (cs : List Char) (p : Char → Prop) (hp : ∀ c, c ∈ cs ↔ p c) :
    Describes (MatchesWith rng lower env atStart (.notCls cs)) (.one fun c => ¬ p c) :=
  describes_congr (describes_eats (· ∉ cs)) fun pre m post => by simp only [Reading.one, hp]

mutual
theorem describes_pattern : ∀ (p : Pattern) (r : Regexp), PSupported p → fromPattern ctx p = some r →
    Describes (MatchesWith rng lower env atStart r) (PReads ctx atStart p)
  | .empty, r, _, h => by cases h; simp only [PReads]; exact describes_empty
  | .characters s, r, _, h => by cases h; simp only [PReads]; exact describes_string s
  | .boundary side, r, _, h => by cases h; simp only [PReads]; exact describes_boundary side
  | .any, r, _, h => by cases h; simp only [PReads]; exact describes_eats _
  | .set cs, r, _, h => by cases h; simp only [PReads]; exact describes_eats _
  | .attributes as, r, hs, h => by
    simp only [fromPattern, Option.map_eq_some_iff] at h
    obtain ⟨cs, hcs, rfl⟩ := h
    simp only [PReads]
    exact describes_cls cs _ (mem_matchAttributes as cs hs hcs)
  | .attributesOrBoundary as side, r, hs, h => by
    simp only [fromPattern, Option.map_eq_some_iff] at h
    obtain ⟨cs, hcs, rfl⟩ := h
    simp only [PReads]
    exact describes_or (describes_cls cs _ (mem_matchAttributes as cs hs hcs)) (describes_boundary side)
  | .group ps, r, hs, h => by
    simp only [fromPattern, Option.map_eq_some_iff] at h
    obtain ⟨x, hx, rfl⟩ := h
    simp only [PReads]
    exact describes_patterns ps x hs hx
  | .negate (.characters s), r, hs, h => by
    simp only [fromPattern, Option.bind_some, Regexp.negate, Option.some.injEq] at h
    subst h
    have hs : s.length = 1 := hs
    simp only [PReads, NotReads]
    match s, hs with
    | [e], _ => exact describes_notChar e
  | .negate (.set cs), r, _, h => by
    simp only [fromPattern, Option.bind_some, Regexp.negate, Option.some.injEq] at h
    subst h
    simp only [PReads, NotReads]
    exact describes_eats _
  | .negate (.attributes as), r, hs, h => by
    simp only [fromPattern, Option.bind_eq_some_iff, Option.map_eq_some_iff] at h
    obtain ⟨_, ⟨cs, hcs, rfl⟩, h⟩ := h
    simp only [Regexp.negate, Option.some.injEq] at h
    subst h
    simp only [PReads, NotReads]
    exact describes_notCls cs _ (mem_matchAttributes as cs hs hcs)
  | .negate (.boundary side), r, _, h => by
    simp only [PReads, NotReads]
    cases side with
    | pre =>
      simp only [fromPattern, boundaryAnchor, Option.bind_some, Regexp.negate, Option.some.injEq] at h
      subst h
      refine describes_congr describes_notStartAnchor fun pre m post => ?_
      simp only [ReadsBoundary, Reading.here]
      constructor
      · rintro ⟨h1, h2⟩; exact ⟨h1, fun h => h2 h.2⟩
      · rintro ⟨h1, h2⟩; exact ⟨h1, fun h => h2 ⟨h1, h⟩⟩
    | post =>
      simp only [fromPattern, boundaryAnchor, Option.bind_some, Regexp.negate, Option.some.injEq] at h
      subst h
      refine describes_congr describes_notEndAnchor fun pre m post => ?_
      simp only [ReadsBoundary, Reading.here]
      constructor
      · rintro ⟨h1, h2⟩; exact ⟨h1, fun h => h2 h.2⟩
      · rintro ⟨h1, h2⟩; exact ⟨h1, fun h => h2 ⟨h1, h⟩⟩
  | .optional p, r, hs, h => by
    simp only [fromPattern, Option.map_eq_some_iff] at h
    obtain ⟨x, hx, rfl⟩ := h
    simp only [PReads]
    exact describes_or describes_eq (describes_pattern p x hs hx)
  | .zeroOrMore p, r, hs, h => by
    simp only [fromPattern, Option.map_eq_some_iff] at h
    obtain ⟨x, hx, rfl⟩ := h
    simp only [PReads]
    have := describes_ex (P := fun _ => True) fun n =>
      describes_iter (describes_pattern p x hs hx) n
    intro pre s s' hp
    have := this pre s s' hp
    simpa [MatchesWith] using this
  | .oneOrMore p, r, hs, h => by
    simp only [fromPattern, Option.map_eq_some_iff] at h
    obtain ⟨x, hx, rfl⟩ := h
    simp only [PReads]
    exact describes_ex (P := fun n => 1 ≤ n) fun n =>
      describes_iter (describes_pattern p x hs hx) n
  | .either a b, r, hs, h => by
    simp only [fromPattern, Option.bind_eq_some_iff, Option.map_eq_some_iff] at h
    obtain ⟨x, hx, y, hy, rfl⟩ := h
    simp only [PReads]
    exact describes_or (describes_patterns a x hs.1 hx) (describes_patterns b y hs.2 hy)
  | .negate .empty, _, hs, _ | .negate .any, _, hs, _ | .negate (.attributesOrBoundary _ _), _, hs, _
  | .negate (.group _), _, hs, _ | .negate (.negate _), _, hs, _ | .negate (.optional _), _, hs, _
  | .negate (.zeroOrMore _), _, hs, _ | .negate (.oneOrMore _), _, hs, _ | .negate (.either _ _), _, hs, _ => hs.elim
theorem describes_patterns : ∀ (ps : List Pattern) (r : Regexp), PAllSupported ps → fromPatterns ctx ps = some r →
    Describes (MatchesWith rng lower env atStart r) (PReadsAll ctx atStart ps)
  | [], r, _, h => by simp [fromPatterns] at h
  | p :: ps, r, hs, h => by
    simp only [fromPatterns, Option.bind_eq_some_iff] at h
    obtain ⟨x, hx, h⟩ := h
    simp only [PReadsAll]
    exact describes_patternsRest ps x r _ hs.2 (describes_pattern p x hs.1 hx) h
theorem describes_patternsRest : ∀ (ps : List Pattern) (acc r : Regexp) (R : Reading), PAllSupported ps →
    Describes (MatchesWith rng lower env atStart acc) R → fromPatternsRest ctx acc ps = some r →
    Describes (MatchesWith rng lower env atStart r) (.seq R (PReadsAll ctx atStart ps))
  | [], acc, r, R, _, hR, h => by
    simp only [fromPatternsRest, Option.some.injEq] at h
    subst h
    simp only [PReadsAll]
    exact describes_congr hR fun pre m post => (seq_here R pre m post).symm
  | p :: ps, acc, r, R, hs, hR, h => by
    simp only [fromPatternsRest, Option.bind_eq_some_iff] at h
    obtain ⟨x, hx, h⟩ := h
    simp only [PReadsAll]
    have h1 := describes_pattern p x hs.1 hx
    exact describes_congr (describes_patternsRest ps (.concat acc x) r _ hs.2 (describes_seq hR h1) h)
      fun pre m post => seq_assoc R _ _ pre m post
end

theorem spells_eatsAll {lower : Char → List Char} : ∀ {cs : Text} {s s' : St} {m : Text}, Moves s s' m → Spells lower m cs →
    EatsAll (fun e c => lower c = [e]) cs s s'
  | [], s, s', m, hm, hs => by
    cases hs
    exact moves_nil.1 hm
  | e :: es, s, s', m, hm, hs => by
    cases hs with
    | @cons c _ m' _ h1 h2 =>
      obtain ⟨t, ha, hb⟩ := moves_split (a := [c]) hm
      refine ⟨t, ?_, spells_eatsAll hb h2⟩
      obtain ⟨a1, a2, a3⟩ := ha
      refine ⟨c, t.rest, a1, h1, ?_⟩
      cases t
      simp_all [St.adv, Regexp.utf8Len]

theorem eatsAll_moves {lower : Char → List Char} : ∀ {cs : Text} {s s' : St},
    EatsAll (fun e c => lower c = [e]) cs s s' → ∃ m, Moves s s' m ∧ Spells lower m cs
  | [], s, s', h => ⟨[], moves_nil.2 h, .nil⟩
  | e :: es, s, s', h => by
    obtain ⟨t, ⟨c, tl, h1, h2, rfl⟩, h3⟩ := h
    obtain ⟨m, hm, hs⟩ := eatsAll_moves h3
    refine ⟨c :: m, moves_append (t := s.adv c tl) (a := [c]) ⟨by simp [h1, St.adv], by simp [St.adv, Regexp.utf8Len], rfl⟩ hm, .cons h2 hs⟩

/-- The match rule fits the text: `x` reads as the pre-pattern, `y` spells the characters (ignoring case), `z` reads as the
post-pattern. -/
structure MatchReads (ctx : CharClasses) (lower : Char → List Char) (atStart : Bool) (pre : List Pattern) (chars : Text)
    (post : List Pattern) (input x y z : Text) : Prop where
  ex : ∃ rest, input = x ++ y ++ z ++ rest ∧ PReadsAll ctx atStart pre [] x (y ++ z ++ rest) ∧ Spells lower y chars ∧
    PReadsAll ctx atStart post (x ++ y) z rest

/-- **C53.** A match rule fits at the start of `input` exactly when the text there reads as its pre-pattern, then its
characters, then its post-pattern; it is then held for the position after the stretch read by the pre-pattern and weighs as
much as the whole stretch.  (Partial: see `PSupported` for the patterns left out.) -/
theorem C53_match_semantics_partial (ctx : CharClasses) (pre : List Pattern) (chars : Text) (post : List Pattern) (to : Text)
    (origin : Origin) (p : Regexp.Compiled Translation) (hc : compileMatch ctx pre chars post to origin = some p)
    (hpre : PAllSupported pre) (hpost : PAllSupported post)
    (lower : Char → List Char) (input : Text) (env : Env) (atStart : Bool) :
    ((∃ f, findAnchored p lower input env atStart = .ok (some f)) ↔
      ∃ x y z, MatchReads ctx lower atStart pre chars post input x y z) ∧
    ∀ f, findAnchored p lower input env atStart = .ok (some f) →
      ∃ x y z, MatchReads ctx lower atStart pre chars post input x y z ∧ f.length = (x ++ y ++ z).length ∧ f.capture = y ∧
        f.payload.resolve f.capture f.length f.offset =
          { Resolved.new chars to 0 .main (some origin) with weight := (x ++ y ++ z).length, offset := x.length } := by
  simp only [compileMatch, fromMatchRule, Option.map_eq_some_iff, Option.bind_eq_some_iff] at hc
  obtain ⟨_, ⟨a, ha, b, hb, rfl⟩, rfl⟩ := hc
  have da := describes_patterns (rng := codeRange) (lower := lower) (env := env) (atStart := atStart) pre a hpre ha
  have db := describes_patterns (rng := codeRange) (lower := lower) (env := env) (atStart := atStart) post b hpost hb
  have sound : ∀ s', MatchesWith codeRange lower env atStart (.concat (.concat a (.capture (.ciString chars))) b) (St.init input) s' →
      ∃ x y z, MatchReads ctx lower atStart pre chars post input x y z ∧ input = x ++ y ++ z ++ s'.rest ∧
        s'.cap = (utf8Len x, utf8Len (x ++ y)) := by
    rintro s' ⟨u, ⟨t1, h1, t2, h2, rfl⟩, h3⟩
    obtain ⟨x, mx, hx⟩ := (da [] _ _ rfl).1 h1
    have hpx : utf8Len x = t1.sp := by have := mx.2.1; simp only [St.init] at this; omega
    obtain ⟨y, my, hy⟩ := eatsAll_moves h2
    have hpy : utf8Len (x ++ y) = t2.sp := moves_pre (s := { t1 with cap := (t1.sp, 0) }) hpx my
    obtain ⟨z, mz, hz⟩ := (db (x ++ y) { t2 with cap := (t2.cap.1, t2.sp) } s' hpy).1 h3
    have e3 : t2.rest = z ++ s'.rest := mz.1
    have e2 : t1.rest = y ++ t2.rest := my.1
    have e1 : input = x ++ t1.rest := mx.1
    have ecap : s'.cap = (t2.cap.1, t2.sp) := mz.2.2
    have ecap2 : t2.cap = (t1.sp, 0) := my.2.2
    rw [e2, e3] at hx
    rw [e2, e3] at e1
    refine ⟨x, y, z, ⟨s'.rest, by simp [e1], by simpa using hx, hy, hz⟩, by simp [e1], ?_⟩
    rw [ecap, ecap2, ← hpx, ← hpy]
  constructor
  · constructor
    · rintro ⟨f, hf⟩
      obtain ⟨res, e, -, hsd⟩ := Regexp.findAnchored_spec (.concat (.concat a (.capture (.ciString chars))) b)
        (Translation.resolved (Resolved.new chars to 0 .main (some origin))) lower input env atStart
      rw [hf] at e; cases e
      obtain ⟨s', _, _, _, hM, _⟩ := hsd f rfl
      obtain ⟨x, y, z, h, _⟩ := sound s' hM
      exact ⟨x, y, z, h⟩
    · rintro ⟨x, y, z, ⟨rest, e, h1, h2, h3⟩⟩
      obtain ⟨res, e', hcm, -⟩ := Regexp.findAnchored_spec (.concat (.concat a (.capture (.ciString chars))) b)
        (Translation.resolved (Resolved.new chars to 0 .main (some origin))) lower input env atStart
      have : ∃ s', MatchesWith codeRange lower env atStart (.concat (.concat a (.capture (.ciString chars))) b) (St.init input) s' := by
        have m1 : Moves (St.init input) ⟨utf8Len x, y ++ z ++ rest, (0, 0)⟩ x := ⟨by simp [St.init, e], by simp [St.init], rfl⟩
        have m2 : Moves ⟨utf8Len x, y ++ z ++ rest, (utf8Len x, 0)⟩ ⟨utf8Len (x ++ y), z ++ rest, (utf8Len x, 0)⟩ y :=
          ⟨by simp, by simp [utf8Len_append], rfl⟩
        have m3 : Moves ⟨utf8Len (x ++ y), z ++ rest, (utf8Len x, utf8Len (x ++ y))⟩
          ⟨utf8Len (x ++ y ++ z), rest, (utf8Len x, utf8Len (x ++ y))⟩ z :=
          ⟨by simp, by simp [utf8Len_append, Nat.add_assoc], rfl⟩
        exact ⟨_, _, ⟨_, (da [] _ _ rfl).2 ⟨x, m1, h1⟩, _, spells_eatsAll m2 h2, rfl⟩, (db (x ++ y) _ _ rfl).2 ⟨z, m3, h3⟩⟩
      have := hcm this
      cases res with
      | none => cases this
      | some f => exact ⟨f, e'⟩
  · intro f hf
    obtain ⟨res, e, -, hsd⟩ := Regexp.findAnchored_spec (.concat (.concat a (.capture (.ciString chars))) b)
      (Translation.resolved (Resolved.new chars to 0 .main (some origin))) lower input env atStart
    rw [hf] at e; cases e
    obtain ⟨s', before', after', consumed, hM, h1, h2, h3, h4, h5, h6⟩ := hsd f rfl
    obtain ⟨x, y, z, hT, e1, e2⟩ := sound s' hM
    rw [e2] at h5
    simp only [Prod.mk.injEq] at h5
    have hx : x = before' := by
      refine prefix_utf8 (b := y ++ z ++ s'.rest) (d := f.capture ++ after' ++ s'.rest) ?_ h5.1
      rw [h1, h3] at e1; simpa using e1.symm
    subst hx
    have hy : x ++ y = x ++ f.capture := by
      refine prefix_utf8 (b := z ++ s'.rest) (d := after' ++ s'.rest) ?_ h5.2
      rw [h1, h3] at e1; simpa using e1.symm
    have hy : y = f.capture := List.append_cancel_left hy
    subst hy
    have hlen : f.length = (x ++ f.capture ++ z).length := by
      rw [h2]
      rw [h1] at e1
      exact congrArg List.length (List.append_cancel_right e1)
    refine ⟨x, f.capture, z, hT, hlen, rfl, ?_⟩
    rw [h6, h4, hlen]
    rfl

set_option maxRecDepth 10000 in
/-- A case that meets the hypotheses: `match %[^_] the [aeiou]+!x` style patterns on " THEoab". -/
example : ∃ p, compileMatch [(.space, ' ')] [.attributesOrBoundary [.cls .space] .pre] "the".toList
      [.oneOrMore (.set ['o', 'a']), .negate (.characters ['x'])] ['⠮'] ⟨.other, 0⟩ = some p ∧
    PAllSupported [.attributesOrBoundary [.cls .space] .pre] ∧
    PAllSupported [.oneOrMore (.set ['o', 'a']), .negate (.characters ['x'])] ∧
    (match findAnchored p (fun c => [c.toLower]) " THEoab".toList Env.new false with
      | .ok (some f) => (f.capture, f.length, f.offset) == ("THE".toList, 7, 1)
      | _ => false) = true := by
  refine ⟨_, rfl, ⟨?_, trivial⟩, ⟨trivial, rfl, trivial⟩, by decide +kernel⟩
  intro a ha; simp at ha; exact ⟨_, ha⟩

end Louis
