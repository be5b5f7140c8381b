import Verif.Spec.Passes
import Verif.Props.Preference
import Verif.Lemmas.Find
import Verif.Lemmas.Rules

/-!
# The matching machine and the interpreter of tests
-/

namespace Louis

namespace Regexp

/-- The regular expression whose code is the one generated for `r`: `{min,max}` is compiled as `min` copies and a loop over
`max - min` copies. -/
def asCoded : Regexp → Regexp
  | .repeatAtLeastAtMost a b r => .concat (.repeatExactly a (asCoded r)) (.zeroOrMore (.repeatExactly (b - a) (asCoded r)))
  | .concat l r => .concat (asCoded l) (asCoded r)
  | .either l r => .either (asCoded l) (asCoded r)
  | .optional r => .optional (asCoded r)
  | .zeroOrMore r => .zeroOrMore (asCoded r)
  | .oneOrMore r => .oneOrMore (asCoded r)
  | .repeatExactly n r => .repeatExactly n (asCoded r)
  | .repeatAtLeast n r => .repeatAtLeast n (asCoded r)
  | .capture r => .capture (asCoded r)
  | .group r => .group (asCoded r)
  | r => r

theorem emit_asCoded : ∀ (r : Regexp) (o : Out), emit (asCoded r) o = emit r o := by
  intro r
  induction r <;> intro o <;> simp only [asCoded, emit, *]
  all_goals first
    | rfl
    | (rename_i ih; rw [show emit (asCoded _) = emit _ from funext ih])

theorem compile_asCoded {τ : Type} (r : Regexp) (payload : τ) : compile (asCoded r) payload = compile r payload := by
  simp only [compile, emit_asCoded]

end Regexp

open Regexp

/-- The state of the machine that corresponds to a place. -/
def Place.st (p : Place) : St := ⟨utf8Len p.read, p.rest, (utf8Len p.opened, utf8Len p.closed)⟩

theorem Place.after_zero (p : Place) : p.after 0 = p := by simp [Place.after]

theorem Place.after_after (p : Place) (a b : Nat) : (p.after a).after b = p.after (a + b) := by
  simp only [Place.after, Place.mk.injEq, List.drop_drop, and_true, true_and]
  rw [List.append_assoc, ← List.take_add]

theorem eat_st (P : Char → Bool) (p : Place) :
    eat P p.st = if 1 ≤ runLength P p.rest then [(p.after 1).st] else [] := by
  obtain ⟨read, rest, o, c⟩ := p
  cases rest with
  | nil => simp [eat, Place.st, runLength]
  | cons x xs =>
    simp only [eat, Place.st, runLength]
    by_cases h : P x = true
    · simp [h, Place.after, St.adv, utf8Len_append, utf8Len]
    · simp [h]

theorem runLength_after (P : Char → Bool) : ∀ (rest : Text) (n : Nat), n ≤ runLength P rest →
    runLength P (rest.drop n) = runLength P rest - n
  | [], n, h => by simp [runLength]
  | x :: xs, 0, _ => by simp
  | x :: xs, n + 1, h => by
    simp only [runLength] at h ⊢
    by_cases hx : P x = true
    · rw [if_pos hx] at h ⊢
      rw [List.drop_succ_cons, runLength_after P xs n (by omega)]
      omega
    · rw [if_neg hx] at h; omega

theorem runLength_le (P : Char → Bool) : ∀ (rest : Text), runLength P rest ≤ rest.length
  | [] => by simp [runLength]
  | x :: xs => by
    have := runLength_le P xs
    simp only [runLength, List.length_cons]; split <;> omega

theorem times_st (P : Char → Bool) : ∀ (n : Nat) (p : Place),
    timesPrefs (eat P) n p.st = if n ≤ runLength P p.rest then [(p.after n).st] else []
  | 0, p => by simp [timesPrefs, Place.after_zero]
  | n + 1, p => by
    simp only [timesPrefs, eat_st]
    by_cases h : 1 ≤ runLength P p.rest
    · rw [if_pos h, List.flatMap_cons, List.flatMap_nil, List.append_nil, times_st P n, Place.after_after, Nat.add_comm 1 n]
      rw [show (p.after 1).rest = p.rest.drop 1 from rfl, runLength_after P _ _ h]
      by_cases h2 : n + 1 ≤ runLength P p.rest
      · rw [if_pos h2, if_pos (by omega)]
      · rw [if_neg h2, if_neg (by omega)]
    · rw [if_neg h, if_neg (by omega)]; rfl

theorem star_st (P : Char → Bool) (d : Nat) (hd : 0 < d) : ∀ (fuel : Nat) (p : Place), p.rest.length ≤ fuel →
    starPrefs (timesPrefs (eat P) d) fuel p.st =
      (List.range (runLength P p.rest / d + 1)).reverse.map fun i => (p.after (i * d)).st
  | 0, p, h => by
    have := runLength_le P p.rest
    have h0 : runLength P p.rest = 0 := by omega
    simp [starPrefs, h0, List.range_succ, Place.after_zero]
  | fuel + 1, p, h => by
    have hle := runLength_le P p.rest
    simp only [starPrefs, times_st]
    by_cases hk : d ≤ runLength P p.rest
    · rw [if_pos hk, List.flatMap_cons, List.flatMap_nil, List.append_nil]
      have hr : (p.after d).rest = p.rest.drop d := rfl
      have hlt : (p.after d).st.rest.length < p.st.rest.length := by
        simp only [Place.st, hr, List.length_drop]; omega
      rw [if_pos hlt, star_st P d hd fuel (p.after d) (by rw [hr, List.length_drop]; omega), hr, runLength_after P _ _ hk]
      obtain ⟨m, hm⟩ : ∃ m, runLength P p.rest / d = m + 1 := by
        have := Nat.div_pos hk hd
        exact ⟨runLength P p.rest / d - 1, by omega⟩
      have hm' : (runLength P p.rest - d) / d = m := by
        have h1 : runLength P p.rest = d + (runLength P p.rest - d) := by omega
        rw [h1, Nat.add_div_left _ hd] at hm
        omega
      rw [hm, hm', List.range_succ_eq_map (n := m + 1)]
      simp [Place.after_after, Place.after_zero, Nat.succ_mul, Nat.add_comm]
    · rw [if_neg hk]
      have h0 : runLength P p.rest / d = 0 := Nat.div_eq_of_lt (by omega)
      simp [h0, List.range_succ, Place.after_zero]

/-- Quantifying anything. -/
def quantifiedOf (r : Regexp) : Option Quantifier → Regexp
  | none => r
  | some (.number n) => .repeatExactly n r
  | some (.range a b) => .repeatAtLeastAtMost a b r
  | some .oneOrMore => .oneOrMore r

theorem quantified_eq (cs : List Char) (q : Option Quantifier) : quantified cs q = quantifiedOf (.cls cs) q := by
  unfold quantified quantifiedOf
  split <;> rfl

theorem negate_quantified (cs : List Char) (q : Option Quantifier) :
    Regexp.negate (quantified cs q) = some (quantifiedOf (.notCls cs) q) := by
  unfold quantified quantifiedOf
  split <;> rfl

variable {lower : Char → List Char} {env : Env} {atStart : Bool} {classes : CharClasses}

theorem quantified_prefs (r : Regexp) (P : Char → Bool) (hP : ∀ s, prefs lower env atStart r s = eat P s)
    (hc : asCoded r = r) (hn : nullable r = false) (hl : SimpleLoops r) (q : Option Quantifier) (hq : Quantifier.Sound q) :
    SimpleLoops (asCoded (quantifiedOf r q)) ∧
    ∀ p : Place, prefs lower env atStart (asCoded (quantifiedOf r q)) p.st =
      ((counts (runLength P p.rest) q).map p.after).map Place.st := by
  have hP' : prefs lower env atStart r = eat P := funext hP
  have one : timesPrefs (eat P) 1 = eat P := by
    funext s
    simp [timesPrefs]
  match q, hq with
  | none, _ =>
    refine ⟨by simpa only [quantifiedOf, hc] using hl, fun p => ?_⟩
    simp only [quantifiedOf, hc, hP, eat_st, counts]
    split <;> rfl
  | some (.number n), _ =>
    refine ⟨by simpa only [quantifiedOf, asCoded, hc, SimpleLoops] using hl, fun p => ?_⟩
    simp only [quantifiedOf, asCoded, hc, prefs, hP', times_st, counts]
    split <;> rfl
  | some .oneOrMore, _ =>
    refine ⟨by simpa only [quantifiedOf, asCoded, hc, SimpleLoops] using ⟨hn, hl⟩, fun p => ?_⟩
    simp only [quantifiedOf, asCoded, hc, prefs, hP', eat_st, counts]
    split
    · next h =>
      simp only [List.flatMap_cons, List.flatMap_nil, List.append_nil]
      rw [← one, star_st P 1 (by omega) _ _ (by simp [Place.st])]
      rw [show (p.after 1).rest = p.rest.drop 1 from rfl, runLength_after P _ _ h, Nat.div_one, Nat.sub_add_cancel h]
      simp [Place.after_after, Nat.add_comm]
    · next h =>
      have : runLength P p.rest = 0 := by omega
      simp [this]
  | some (.range a b), hq =>
    have hab : a < b := hq
    refine ⟨?_, fun p => ?_⟩
    · simp only [quantifiedOf, asCoded, hc, SimpleLoops, nullable, Bool.or_eq_false_iff, beq_eq_false_iff_ne]
      exact ⟨hl, ⟨by omega, hn⟩, hl⟩
    · simp only [quantifiedOf, asCoded, hc, prefs, hP', times_st, counts]
      split
      · next h =>
        simp only [List.flatMap_cons, List.flatMap_nil, List.append_nil]
        rw [star_st P (b - a) (by omega) _ _ (by simp [Place.st])]
        rw [show (p.after a).rest = p.rest.drop a from rfl, runLength_after P _ _ h]
        simp [Place.after_after]
      · rfl

theorem eatAll_string (p : Place) : ∀ (s : Text), eatAll (fun e c => c == e) s p.st =
    if s.isPrefixOf p.rest then [(p.after s.length).st] else [] := by
  intro s
  induction s generalizing p with
  | nil => simp [eatAll, Place.after_zero]
  | cons e es ih =>
    simp only [eatAll, eat_st]
    cases hr : p.rest with
    | nil => simp [runLength]
    | cons c cs =>
      have h2 : (p.after 1).rest = cs := by simp [Place.after, hr]
      by_cases h : c = e
      · subst h
        simp [runLength, ih, h2, Place.after_after, Nat.add_comm]
      · simp [runLength, h]
        exact fun h' => absurd h'.symm h

theorem eatAll_differs (p : Place) : ∀ (s : Text), eatAll (fun e c => c != e) s p.st =
    if differs s p.rest then [(p.after s.length).st] else [] := by
  intro s
  induction s generalizing p with
  | nil => simp [eatAll, Place.after_zero, differs]
  | cons e es ih =>
    simp only [eatAll, eat_st]
    cases hr : p.rest with
    | nil => simp [runLength, differs]
    | cons c cs =>
      have h2 : (p.after 1).rest = cs := by simp [Place.after, hr]
      by_cases h : c = e
      · simp [runLength, differs, h]
      · simp [runLength, differs, h, ih, h2, Place.after_after, Nat.add_comm]

theorem contains_get (k : CharClass) (c : Char) : ((classes.get k).getD []).contains c = classes.has k c := by
  have h := classes_mem_get classes k c
  cases h1 : ((classes.get k).getD []).contains c <;> cases h2 : classes.has k c <;> simp_all

theorem contains_attrs (as : List Attr) (c : Char) :
    (as.flatMap fun | .cls k => (classes.get k).getD [] | _ => []).contains c = ofAttrs classes as c := by
  induction as with
  | nil => rfl
  | cons a as ih =>
    simp only [List.flatMap_cons, List.contains_append, ih, ofAttrs, List.any_cons]
    congr 1
    cases a with
    | cls k => exact contains_get k c
    | _ => rfl

theorem st_start (p : Place) : (atStart = true ∧ p.st.sp = 0) ↔ (atStart && p.read.isEmpty) = true := by
  simp only [Place.st, utf8Len_eq_zero, Bool.and_eq_true, List.isEmpty_iff]

theorem not_readings (t : TestInstr) (h1 : ∀ u, t ≠ .negate u) (h2 : ∀ us, t ≠ .replace us) (hw : t.Written) (r : Regexp)
    (hr : (fromInstr classes t).bind Regexp.negate = some r) : SimpleLoops (asCoded r) ∧
    ∀ p : Place, prefs lower env atStart (asCoded r) p.st = (readingsNot classes env atStart t p).map Place.st := by
  cases t with
  | lookback n =>
    simp only [fromInstr, Option.bind_some, Regexp.negate, Option.some.injEq] at hr
    subst hr
    exact ⟨trivial, fun p => rfl⟩
  | varTest v op o =>
    cases op <;> simp only [fromInstr, Option.bind_some, Option.bind_none, Regexp.negate, Option.some.injEq, reduceCtorEq] at hr
    subst hr
    refine ⟨trivial, fun p => ?_⟩
    simp only [asCoded, prefs, readingsNot, Operator.test]
    cases h : env v with
    | none => simp
    | some a => by_cases ha : a = o <;> simp [ha]
  | string s =>
    simp only [fromInstr, Option.bind_some, Regexp.negate, Option.some.injEq] at hr
    subst hr
    refine ⟨trivial, fun p => ?_⟩
    simp only [asCoded, prefs, readingsNot, eatAll_differs]
    split <;> rfl
  | dots s =>
    simp only [fromInstr, Option.bind_some, Regexp.negate, Option.some.injEq] at hr
    subst hr
    refine ⟨trivial, fun p => ?_⟩
    simp only [asCoded, prefs, readingsNot, eatAll_differs]
    split <;> rfl
  | attributes as q =>
    simp only [fromInstr, Option.bind_some, fromAttributes, negate_quantified, Option.some.injEq] at hr
    subst hr
    simp only [readingsNot]
    refine quantified_prefs (.notCls _) _ (fun s => ?_) rfl rfl trivial q (by simpa only [TestInstr.Written] using hw)
    simp only [prefs]
    congr 1
    funext c
    exact congrArg (! ·) (contains_attrs as c)
  | cls n q =>
    simp only [fromInstr, Option.bind_some, fromClass, negate_quantified, Option.some.injEq] at hr
    subst hr
    simp only [readingsNot]
    refine quantified_prefs (.notCls _) _ (fun s => ?_) rfl rfl trivial q (by simpa only [TestInstr.Written] using hw)
    simp only [prefs]
    congr 1
    funext c
    rw [ofClass, ← contains_get _ c]
  | negate u => exact absurd rfl (h1 u)
  | replace us => exact absurd rfl (h2 us)
  | atBeginning =>
    simp only [fromInstr, Option.bind_some, Regexp.negate, Option.some.injEq] at hr
    subst hr
    refine ⟨trivial, fun p => ?_⟩
    simp only [asCoded, prefs, readingsNot, st_start]
    split <;> rfl
  | atEnd =>
    simp only [fromInstr, Option.bind_some, Regexp.negate, Option.some.injEq] at hr
    subst hr
    refine ⟨trivial, fun p => ?_⟩
    simp only [asCoded, prefs, readingsNot, Place.st]
    split <;> rfl

mutual
theorem instr_readings : ∀ (t : TestInstr), t.Written → ∀ (r : Regexp), fromInstr classes t = some r →
    SimpleLoops (asCoded r) ∧
    ∀ p : Place, prefs lower env atStart (asCoded r) p.st = (readings classes env atStart t p).map Place.st
  | .lookback n, _, r, hr => by
    simp only [fromInstr, Option.some.injEq] at hr
    subst hr
    exact ⟨trivial, fun p => by simp [asCoded, prefs, readings]⟩
  | .varTest v op o, _, r, hr => by
    cases op <;> simp only [fromInstr, Option.some.injEq, reduceCtorEq] at hr
    subst hr
    refine ⟨trivial, fun p => ?_⟩
    simp only [asCoded, prefs, readings, Operator.test]
    cases h : env v with
    | none => simp
    | some a => by_cases ha : a = o <;> simp [ha]
  | .string s, _, r, hr => by
    simp only [fromInstr, Option.some.injEq] at hr
    subst hr
    refine ⟨trivial, fun p => ?_⟩
    simp only [asCoded, prefs, readings, eatAll_string]
    split <;> rfl
  | .dots s, _, r, hr => by
    simp only [fromInstr, Option.some.injEq] at hr
    subst hr
    refine ⟨trivial, fun p => ?_⟩
    simp only [asCoded, prefs, readings, eatAll_string]
    split <;> rfl
  | .attributes as q, hw, r, hr => by
    simp only [fromInstr, fromAttributes, quantified_eq, Option.some.injEq] at hr
    subst hr
    simp only [readings]
    refine quantified_prefs (.cls _) _ (fun s => ?_) rfl rfl trivial q (by simpa only [TestInstr.Written] using hw)
    simp only [prefs]
    congr 1
    funext c
    exact contains_attrs as c
  | .cls n q, hw, r, hr => by
    simp only [fromInstr, fromClass, quantified_eq, Option.some.injEq] at hr
    subst hr
    simp only [readings]
    refine quantified_prefs (.cls _) _ (fun s => ?_) rfl rfl trivial q (by simpa only [TestInstr.Written] using hw)
    simp only [prefs]
    congr 1
    funext c
    exact contains_get _ c
  | .negate t, hw, r, hr => by
    simp only [TestInstr.Written] at hw
    simp only [fromInstr] at hr
    have := not_readings (lower := lower) (env := env) (atStart := atStart) t hw.1 hw.2.1 hw.2.2 r hr
    simpa only [readings] using this
  | .replace ts, hw, r, hr => by
    simp only [TestInstr.Written] at hw
    simp only [fromInstr, Option.map_eq_some_iff] at hr
    obtain ⟨r, hr, rfl⟩ := hr
    obtain ⟨h1, h2⟩ := instrs_readings ts hw r hr
    refine ⟨by simpa only [asCoded, SimpleLoops] using h1, fun p => ?_⟩
    simp only [asCoded, prefs, readings]
    have : ({ p.st with cap := (p.st.sp, 0) } : St) = p.opening.st := rfl
    rw [this, h2]
    simp only [List.map_map]
    rfl
  | .atBeginning, _, r, hr => by
    simp only [fromInstr, Option.some.injEq] at hr
    subst hr
    refine ⟨trivial, fun p => ?_⟩
    simp only [asCoded, prefs, readings, st_start]
    split <;> rfl
  | .atEnd, _, r, hr => by
    simp only [fromInstr, Option.some.injEq] at hr
    subst hr
    refine ⟨trivial, fun p => ?_⟩
    simp only [asCoded, prefs, readings, Place.st]
    split <;> rfl
theorem instrs_readings : ∀ (ts : List TestInstr), TestsWritten ts → ∀ (r : Regexp), fromInstrs classes ts = some r →
    SimpleLoops (asCoded r) ∧
    ∀ p : Place, prefs lower env atStart (asCoded r) p.st = (readingsAll classes env atStart ts p).map Place.st
  | [], _, r, hr => by
    simp only [fromInstrs, Option.some.injEq] at hr
    subst hr
    exact ⟨trivial, fun p => by simp [asCoded, prefs, readingsAll]⟩
  | t :: ts, hw, r, hr => by
    simp only [TestsWritten] at hw
    simp only [fromInstrs, Option.bind_eq_some_iff] at hr
    obtain ⟨x, hx, hr⟩ := hr
    obtain ⟨h1, h2⟩ := instr_readings t hw.1 x hx
    simp only [readingsAll]
    exact rest_readings ts hw.2 x r _ h1 h2 hr
theorem rest_readings : ∀ (ts : List TestInstr), TestsWritten ts → ∀ (acc r : Regexp) (f : Place → List Place),
    SimpleLoops (asCoded acc) → (∀ p : Place, prefs lower env atStart (asCoded acc) p.st = (f p).map Place.st) →
    fromRest classes acc ts = some r →
    SimpleLoops (asCoded r) ∧
    ∀ p : Place, prefs lower env atStart (asCoded r) p.st = ((f p).flatMap (readingsAll classes env atStart ts)).map Place.st
  | [], _, acc, r, f, ha, hf, hr => by
    simp only [fromRest, Option.some.injEq] at hr
    subst hr
    refine ⟨ha, fun p => ?_⟩
    rw [hf]
    congr 1
    induction f p with
    | nil => rfl
    | cons a l ih => rw [List.flatMap_cons, ← ih]; rfl
  | t :: ts, hw, acc, r, f, ha, hf, hr => by
    simp only [TestsWritten] at hw
    simp only [fromRest, Option.bind_eq_some_iff] at hr
    obtain ⟨x, hx, hr⟩ := hr
    obtain ⟨h1, h2⟩ := instr_readings t hw.1 x hx
    have := rest_readings ts hw.2 (.concat acc x) r (fun p => (f p).flatMap (readings classes env atStart t))
      (by simpa only [asCoded, SimpleLoops] using ⟨ha, h1⟩)
      (fun p => by
        simp only [asCoded, prefs, hf, List.flatMap_map, List.map_flatMap]
        congr 1
        funext q
        exact h2 q) hr
    refine ⟨this.1, fun p => ?_⟩
    rw [this.2 p, List.flatMap_assoc]
    simp only [readingsAll]
end

end Louis
