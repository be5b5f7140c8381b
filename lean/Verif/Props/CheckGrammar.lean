import Verif.Spec.Check
import Verif.Props.DicGrammar

/-!
# C64: what a test file means
-/

namespace Louis

/-! ## Readers -/

/-- The reader accepts exactly the sources of `R`, whatever follows. -/
def ReadsAs {α : Type} (p : YP α) (R : List Ev → α → Prop) : Prop :=
  ∀ evs x rest, p evs = some (x, rest) ↔ ∃ src, evs = src ++ rest ∧ R src x

theorem yEvent_iff (e : Ev) (evs rest : List Ev) (u : Unit) : yEvent e evs = some (u, rest) ↔ evs = e :: rest := by
  cases evs with
  | nil => simp [yEvent]
  | cons x evs =>
    unfold yEvent
    by_cases h : x = e
    · subst h; simp
    · simp [h]

theorem yEvent_self (e : Ev) (rest : List Ev) : yEvent e (e :: rest) = some ((), rest) := by simp [yEvent]

theorem yScalar_reads : ReadsAs yScalar ScalarSrc := by
  intro evs x rest
  constructor
  · intro h
    unfold yScalar at h
    split at h
    · cases h; exact ⟨_, rfl, .mk _ _⟩
    · cases h
  · rintro ⟨src, rfl, h⟩
    cases h; rfl

theorem yScalars_src (evs : List Ev) : ∃ src, evs = src ++ (yScalars evs).2 ∧ ScalarsSrc src (yScalars evs).1 := by
  induction evs with
  | nil => exact ⟨[], rfl, .nil⟩
  | cons e evs ih =>
    cases e with
    | scalar v b =>
      obtain ⟨src, e1, e2⟩ := ih
      exact ⟨.scalar v b :: src, by rw [yScalars, List.cons_append, ← e1], .cons e2⟩
    | _ => exact ⟨[], rfl, .nil⟩

theorem yScalars_of {src : List Ev} {vs : List Text} (h : ScalarsSrc src vs) (e : Ev) (rest : List Ev)
    (he : ∀ v b, e ≠ .scalar v b) : yScalars (src ++ e :: rest) = (vs, e :: rest) := by
  induction h with
  | nil =>
    cases e with
    | scalar v b => exact absurd rfl (he v b)
    | _ => rfl
  | cons _ ih => rw [List.cons_append, yScalars, ih]

theorem yList_reads : ReadsAs yList SeqSrc := by
  intro evs x rest
  unfold yList
  constructor
  · intro h
    simp only [Option.bind_eq_some_iff, Option.map_eq_some_iff, Prod.mk.injEq] at h
    obtain ⟨r, h1, r', h2, rfl, rfl⟩ := h
    have e1 := (yEvent_iff _ _ _ _).1 h1
    have e2 := (yEvent_iff _ _ _ _).1 h2
    obtain ⟨src, e3, e4⟩ := yScalars_src r.2
    refine ⟨_, ?_, .mk e4⟩
    rw [e1, e3, e2]
    simp
  · rintro ⟨src, rfl, h⟩
    cases h with
    | @mk src vs h =>
      rw [List.cons_append, List.cons_append, yEvent_self, Option.bind_some, List.append_assoc, List.singleton_append,
        yScalars_of h _ _ (by simp), yEvent_self]
      rfl

theorem yPairs_src : ∀ (n : Nat) (evs : List Ev), evs.length ≤ n → ∀ ps rest, yPairs evs = some (ps, rest) →
    ∃ src, evs = src ++ rest ∧ PairsSrc src ps := by
  intro n
  induction n with
  | zero =>
    intro evs hn ps rest h
    have : evs = [] := List.length_eq_zero_iff.1 (by omega)
    subst this
    rw [yPairs.eq_def] at h
    cases h; exact ⟨[], rfl, .nil⟩
  | succ n ih =>
    intro evs hn ps rest h
    rw [yPairs.eq_def] at h
    split at h
    · rename_i k b v b' evs
      rw [Option.map_eq_some_iff] at h
      obtain ⟨⟨ps', rest'⟩, h1, h2⟩ := h
      cases h2
      obtain ⟨src, rfl, e2⟩ := ih evs (by simp at hn; omega) _ _ h1
      exact ⟨_, rfl, .cons e2⟩
    · cases h
    · cases h; exact ⟨[], rfl, .nil⟩

theorem yPairs_of {src : List Ev} {ps : List (Text × Text)} (h : PairsSrc src ps) (e : Ev) (rest : List Ev)
    (he : ∀ v b, e ≠ .scalar v b) : yPairs (src ++ e :: rest) = some (ps, e :: rest) := by
  induction h with
  | nil =>
    cases e with
    | scalar v b => exact absurd rfl (he v b)
    | _ => rfl
  | cons _ ih =>
    rw [List.cons_append, List.cons_append, yPairs, ih]
    rfl

theorem yMap_reads : ReadsAs yMap MapSrc := by
  intro evs x rest
  unfold yMap
  constructor
  · intro h
    simp only [Option.bind_eq_some_iff, Option.map_eq_some_iff, Prod.mk.injEq] at h
    obtain ⟨r, h1, r2, h2, r', h3, rfl, rfl⟩ := h
    have e1 := (yEvent_iff _ _ _ _).1 h1
    have e3 := (yEvent_iff _ _ _ _).1 h3
    obtain ⟨src, e2, e4⟩ := yPairs_src _ _ (Nat.le_refl _) _ _ h2
    refine ⟨_, ?_, .mk e4⟩
    rw [e1, e2, e3]
    simp
  · rintro ⟨src, rfl, h⟩
    cases h with
    | @mk src vs h =>
      rw [List.cons_append, List.cons_append, yEvent_self, Option.bind_some, List.append_assoc, List.singleton_append,
        yPairs_of h _ _ (by simp), Option.bind_some, yEvent_self]
      rfl

theorem lastValue_some (key v : Text) (q : List (Text × Text)) : lastValue key q = some v ↔
    ∃ a b, q = a ++ (key, v) :: b ∧ ∀ x ∈ b, x.1 ≠ key := by
  unfold lastValue
  constructor
  · intro h
    rw [Option.map_eq_some_iff] at h
    obtain ⟨⟨k, w⟩, h1, rfl⟩ := h
    induction q with
    | nil => simp at h1
    | cons x q ih =>
      rw [List.filter_cons] at h1
      by_cases hq : (q.filter (·.1 == key)) = []
      · rw [hq] at h1
        split at h1
        · rename_i hx
          simp only [List.getLast?_singleton, Option.some.injEq] at h1
          subst h1
          refine ⟨[], q, by simpa using hx, ?_⟩
          intro y hy e
          have : y ∈ q.filter (·.1 == key) := List.mem_filter.2 ⟨hy, by simpa using e⟩
          rw [hq] at this; cases this
        · simp at h1
      · have h2 : (q.filter (·.1 == key)).getLast? = some (k, w) := by
          split at h1
          · rw [List.getLast?_cons] at h1
            cases hl : (q.filter (·.1 == key)).getLast? with
            | none => exact absurd (List.getLast?_eq_none_iff.1 hl) hq
            | some z => rw [hl] at h1; simpa using h1
          · exact h1
        obtain ⟨a, b, rfl, hb⟩ := ih h2
        exact ⟨x :: a, b, rfl, hb⟩
  · rintro ⟨a, b, rfl, hb⟩
    have : b.filter (·.1 == key) = [] := by
      rw [List.filter_eq_nil_iff]
      intro x hx; simpa using hb x hx
    simp [List.filter_append, this]

theorem lastValue_none (key : Text) (q : List (Text × Text)) : lastValue key q = none ↔ ∀ x ∈ q, x.1 ≠ key := by
  unfold lastValue
  simp [List.filter_eq_nil_iff]

theorem yTable_reads : ReadsAs yTable TableSrc := by
  intro evs x rest
  constructor
  · intro h
    unfold yTable at h
    split at h
    · rw [Option.map_eq_some_iff] at h
      obtain ⟨⟨ps, r⟩, h1, h2⟩ := h
      obtain ⟨src, e1, e2⟩ := (yMap_reads _ _ _).1 h1
      simp only [Prod.mk.injEq] at h2
      obtain ⟨h2, rfl⟩ := h2
      refine ⟨src, e1, ?_⟩
      cases hl : lastValue "__assert-match".toList ps with
      | none =>
        rw [hl] at h2; subst h2
        exact .query e2 ((lastValue_none _ _).1 hl)
      | some v =>
        rw [hl] at h2; subst h2
        obtain ⟨a, b, rfl, hb⟩ := (lastValue_some _ _ _).1 hl
        exact .asserted e2 hb
    · rw [Option.map_eq_some_iff] at h
      obtain ⟨⟨vs, r⟩, h1, h2⟩ := h
      cases h2
      obtain ⟨src, e1, e2⟩ := (yList_reads _ _ _).1 h1
      exact ⟨src, e1, .list e2⟩
    · rename_i v b evs
      cases h
      refine ⟨[.scalar v b], rfl, ?_⟩
      cases b
      · exact .file v
      · exact .inline v
    · cases h
  · rintro ⟨src, rfl, h⟩
    cases h with
    | inline v => rfl
    | file v => rfl
    | @list _ vs h =>
      have := (yList_reads (src ++ rest) vs rest).2 ⟨src, rfl, h⟩
      cases h with
      | mk h => rw [List.cons_append, List.cons_append] at *; rw [yTable, this]; rfl
    | @asserted _ ps qs v h hq =>
      have e := (yMap_reads (src ++ rest) _ rest).2 ⟨src, rfl, h⟩
      have e2 := (lastValue_some "__assert-match".toList v _).2 ⟨ps, qs, rfl, hq⟩
      generalize ps ++ ("__assert-match".toList, v) :: qs = all at *
      cases h with
      | mk h => rw [List.cons_append, List.cons_append] at *; rw [yTable, e, Option.map_some]; simp only [e2]
    | @query _ ps h hq =>
      have e := (yMap_reads (src ++ rest) _ rest).2 ⟨src, rfl, h⟩
      have e2 := (lastValue_none "__assert-match".toList _).2 hq
      cases h with
      | mk h => rw [List.cons_append, List.cons_append] at *; rw [yTable, e, Option.map_some]; simp only [e2]

theorem commaList_iff (s : Text) (ps : List Text) : CommaList s ps ↔ splitOn ',' s = ps := by
  constructor
  · intro h
    induction h with
    | last h => exact splitOn_none _ _ h
    | cons h _ ih => rw [splitOn_append _ _ _ h, ih]
  · intro h
    subst h
    induction hn : s.length using Nat.strongRecOn generalizing s with
    | ind n ih =>
      rcases splitOn_cases ',' s with h | ⟨p, rest, rfl, hp⟩
      · rw [splitOn_none _ _ h]; exact .last h
      · rw [splitOn_append _ _ _ hp]
        exact .cons hp (ih rest.length (by subst hn; simp; omega) rest rfl)

theorem yDisplay_reads : ReadsAs yDisplay DisplaySrc := by
  intro evs x rest
  constructor
  · intro h
    unfold yDisplay at h
    split at h
    · rw [Option.map_eq_some_iff] at h
      obtain ⟨⟨vs, r⟩, h1, h2⟩ := h
      cases h2
      obtain ⟨src, e1, e2⟩ := (yList_reads _ _ _).1 h1
      exact ⟨src, e1, .list e2⟩
    · rename_i v b evs
      simp only [Option.some.injEq, Prod.mk.injEq] at h
      obtain ⟨rfl, rfl⟩ := h
      refine ⟨[.scalar v b], rfl, ?_⟩
      cases b
      · by_cases hv : ',' ∈ v
        · rw [if_neg (by simp), if_pos (by simpa using hv)]
          exact .files hv ((commaList_iff _ _).2 rfl)
        · rw [if_neg (by simp), if_neg (by simpa using hv)]
          exact .file hv
      · exact .inline v
    · cases h
  · rintro ⟨src, rfl, h⟩
    cases h with
    | inline v => rfl
    | @file v h => simp [yDisplay, h]
    | @files v ps h hp => simp [yDisplay, h, (commaList_iff _ _).1 hp]
    | @list _ vs h =>
      have := (yList_reads (src ++ rest) vs rest).2 ⟨src, rfl, h⟩
      cases h with
      | mk h => rw [List.cons_append, List.cons_append] at *; rw [yDisplay, this]; rfl

theorem testModeOf_iff (v : Text) (m : TestMode) : testModeOf v = some m ↔ v = testModeName m := by
  constructor
  · intro h
    unfold testModeOf at h
    repeat' split at h
    all_goals first | (cases h; assumption) | cases h
  · rintro rfl
    cases m <;> decide

theorem yFlags_reads : ReadsAs yFlags FlagsSrc := by
  intro evs x rest
  unfold yFlags
  constructor
  · intro h
    simp only [Option.bind_eq_some_iff] at h
    obtain ⟨⟨_, r1⟩, h1, ⟨k, r2⟩, h2, h⟩ := h
    split at h
    · rename_i hk
      simp only [Option.bind_eq_some_iff, Option.map_eq_some_iff] at h
      obtain ⟨⟨v, r3⟩, h3, m, h4, ⟨_, r4⟩, h5, h6⟩ := h
      cases h6
      have e1 := (yEvent_iff _ _ _ _).1 h1
      obtain ⟨s2, e2, e2'⟩ := (yScalar_reads _ _ _).1 h2
      obtain ⟨s3, e3, e3'⟩ := (yScalar_reads _ _ _).1 h3
      have e4 := (testModeOf_iff _ _).1 h4
      have e5 := (yEvent_iff _ _ _ _).1 h5
      simp only at e1 e2 e3 e5 hk e4
      cases e2'
      cases e3'
      subst hk e4
      rename_i b b'
      refine ⟨_, ?_, .mk (.mk (.cons (b := b) (b' := b') .nil))⟩
      rw [e1, e2, e3, e5]
      rfl
    · cases h
  · rintro ⟨src, rfl, ⟨⟨h⟩⟩⟩
    cases h with
    | cons h =>
      cases h
      have e := (testModeOf_iff _ x).2 rfl
      generalize testModeName x = name at *
      generalize "testmode".toList = tm at *
      rw [List.cons_append, List.cons_append, yEvent_self, Option.bind_some]
      simp only [List.cons_append, List.nil_append, yScalar, Option.bind_some, if_true, e, yEvent_self, Option.map_some]


theorem xfailValue_iff (v : Text) (x : Xfail) : XfailValue v x ↔ xfailValue v = x := by
  constructor
  · intro h
    unfold xfailValue
    cases h with
    | no h => rw [if_pos h]
    | yes h =>
      rw [if_neg, if_pos h]
      rcases h with rfl | rfl <;> decide
    | reason h1 h2 h3 h4 => rw [if_neg (by simp only [not_or]; exact ⟨h1, h2⟩), if_neg (by simp only [not_or]; exact ⟨h3, h4⟩)]
  · intro h
    unfold xfailValue at h
    split at h
    · subst h; exact .no (by assumption)
    · split at h
      · subst h; exact .yes (by assumption)
      · subst h
        rename_i h1 h2
        simp only [not_or] at h1 h2
        exact .reason h1.1 h1.2 h2.1 h2.2

theorem says_cons (k v name : Text) (ps : List (Text × Text)) :
    Says ((k, v) :: ps) name ↔ (k = name ∧ xfailValue v ≠ .simple false) ∨ Says ps name := by
  unfold Says
  constructor
  · rintro ⟨w, hm, hw⟩
    rw [xfailValue_iff] at hw
    rcases List.mem_cons.1 hm with e | hm
    · cases e; exact .inl ⟨rfl, hw⟩
    · exact .inr ⟨w, hm, by rw [xfailValue_iff]; exact hw⟩
  · rintro (⟨rfl, h⟩ | ⟨w, hm, hw⟩)
    · exact ⟨v, List.mem_cons_self .., by rw [xfailValue_iff]; exact h⟩
    · exact ⟨w, List.mem_cons_of_mem _ hm, hw⟩

theorem fwd_ne_bwd : "forward".toList ≠ "backward".toList := by decide

theorem xfailDirections_iff (ps : List (Text × Text)) : ∀ (f b f' b' : Bool), xfailDirections ps (f, b) = some (f', b') ↔
    (∀ p ∈ ps, p.1 = "forward".toList ∨ p.1 = "backward".toList) ∧
      (f' = true ↔ f = true ∨ Says ps "forward".toList) ∧ (b' = true ↔ b = true ∨ Says ps "backward".toList) := by
  induction ps with
  | nil =>
    intro f b f' b'
    simp only [xfailDirections, Says, Option.some.injEq, Prod.mk.injEq, List.not_mem_nil, false_and, exists_false, or_false,
      false_implies, implies_true, true_and]
    constructor
    · rintro ⟨rfl, rfl⟩; exact ⟨Iff.rfl, Iff.rfl⟩
    · rintro ⟨h1, h2⟩
      exact ⟨by cases f <;> cases f' <;> simp_all, by cases b <;> cases b' <;> simp_all⟩
  | cons p ps ih =>
    obtain ⟨k, v⟩ := p
    intro f b f' b'
    unfold xfailDirections
    simp only [says_cons]
    by_cases h1 : k = "forward".toList
    · subst h1
      rw [if_pos rfl, ih]
      simp only [List.mem_cons, forall_eq_or_imp, true_or, true_and, fwd_ne_bwd, false_and, false_or, Bool.or_eq_true,
        decide_eq_true_eq, or_assoc, ne_eq]
    · rw [if_neg h1]
      by_cases h2 : k = "backward".toList
      · subst h2
        rw [if_pos rfl, ih]
        simp only [List.mem_cons, forall_eq_or_imp, or_true, true_and, fwd_ne_bwd.symm, false_and, false_or, Bool.or_eq_true,
          decide_eq_true_eq, or_assoc, ne_eq]
      · rw [if_neg h2]
        simp only [reduceCtorEq, List.mem_cons, forall_eq_or_imp, h1, h2, or_false, false_and]

theorem yXfail_reads : ReadsAs yXfail XfailSrc := by
  intro evs x rest
  constructor
  · intro h
    unfold yXfail at h
    split at h
    · simp only [Option.bind_eq_some_iff, Option.map_eq_some_iff] at h
      obtain ⟨⟨ps, r⟩, h1, ⟨f, b⟩, h2, h3⟩ := h
      cases h3
      obtain ⟨src, e1, e2⟩ := (yMap_reads _ _ _).1 h1
      obtain ⟨h4, h5, h6⟩ := (xfailDirections_iff _ _ _ _ _).1 h2
      exact ⟨src, e1, .directions e2 h4 (by simpa using h5) (by simpa using h6)⟩
    · rename_i v b evs
      cases h
      exact ⟨[.scalar v b], rfl, .scalar (.mk _ _) ((xfailValue_iff _ _).2 rfl)⟩
    · cases h
  · rintro ⟨src, rfl, h⟩
    cases h with
    | scalar h1 h2 =>
      cases h1
      rw [xfailValue_iff] at h2
      subst h2; rfl
    | @directions ps f b h1 h2 h3 h4 =>
      have e := (yMap_reads (src ++ rest) _ rest).2 ⟨src, rfl, h1⟩
      have e2 := (xfailDirections_iff ps false false f b).2 ⟨h2, by simpa using h3, by simpa using h4⟩
      cases h1 with
      | mk h => rw [List.cons_append, List.cons_append] at *; rw [yXfail, e, Option.bind_some, e2]; rfl

/-! ## Masks -/

/-- What the loop still adds, with a run open since `s` or not: the runs that end in `cs`, which is the mask from `i` on. -/
theorem maskLoop_spec (cls mask : Text) : ∀ (cs : Text) (i : Nat) (run : Option Nat), mask.drop i = cs → i ≤ mask.length →
    (∀ s, run = some s → s < i ∧ (∀ j, s ≤ j → j < i → mask[j]? = some '+') ∧ ∀ j, j + 1 = s → mask[j]? ≠ some '+') →
    (run = none → ∀ j, j + 1 = i → mask[j]? ≠ some '+') →
    (∀ sp, sp ∈ maskLoop cls cs i run ↔ sp.cls = cls ∧ MaskRun mask sp.start sp.stop ∧ i ≤ sp.stop) ∧
      (maskLoop cls cs i run).Pairwise (fun a b => a.stop < b.start) := by
  intro cs
  induction cs with
  | nil =>
    intro i run hd hi hr hn
    have hlen : mask.length ≤ i := List.drop_eq_nil_iff.1 hd
    have hout : ∀ j, i ≤ j → mask[j]? = none := fun j hj => List.getElem?_eq_none_iff.2 (by omega)
    cases run with
    | none =>
      refine ⟨fun sp => ?_, .nil⟩
      simp only [maskLoop, List.not_mem_nil, false_iff, not_and]
      rintro - hm hle
      have h1 := hm.inside (sp.stop - 1) (by have := hm.nonempty; omega) (by have := hm.nonempty; omega)
      by_cases h2 : i ≤ sp.stop - 1
      · rw [hout _ h2] at h1; cases h1
      · exact hn rfl (sp.stop - 1) (by have := hm.nonempty; omega) h1
    | some s =>
      obtain ⟨h1, h2, h3⟩ := hr s rfl
      refine ⟨fun sp => ?_, List.pairwise_singleton _ _⟩
      simp only [maskLoop, List.mem_singleton]
      constructor
      · rintro rfl
        exact ⟨rfl, ⟨h1, h2, h3, by rw [hout _ (Nat.le_refl _)]; simp⟩, Nat.le_refl _⟩
      · rintro ⟨hc, hm, hle⟩
        have hstop : sp.stop = i := by
          by_cases h : sp.stop = i
          · exact h
          · have := hm.inside (sp.stop - 1) (by have := hm.nonempty; omega) (by have := hm.nonempty; omega)
            rw [hout _ (by omega)] at this; cases this
        have hstart : sp.start = s := by
          rcases Nat.lt_trichotomy sp.start s with h | h | h
          · exact absurd (hm.inside (s - 1) (by omega) (by omega)) (h3 (s - 1) (by omega))
          · exact h
          · exact absurd (h2 (sp.start - 1) (by omega) (by have := hm.nonempty; omega)) (hm.before (sp.start - 1) (by omega))
        obtain ⟨a, b, c⟩ := sp
        simp only at hc hstop hstart
        subst hc hstop hstart; rfl
  | cons c cs ih =>
    intro i run hd hi hr hn
    have hlt : i < mask.length := by
      by_cases h : i < mask.length
      · exact h
      · rw [List.drop_eq_nil_iff.2 (by omega)] at hd; cases hd
    have hc : mask[i]? = some c := by
      have := congrArg List.head? hd
      rw [List.head?_drop] at this
      simpa using this
    have hd' : mask.drop (i + 1) = cs := by
      rw [← List.drop_drop, hd]; rfl
    by_cases hp : c = '+'
    · subst hp
      cases run with
      | none =>
        have e : maskLoop cls ('+' :: cs) i none = maskLoop cls cs (i + 1) (some i) := by simp [maskLoop]
        rw [e]
        obtain ⟨h1, h2⟩ := ih (i + 1) (some i) hd' hlt (by
          intro s hs; cases hs
          exact ⟨by omega, fun j h1 h2 => by have : j = i := by omega
                                             subst this; exact hc, hn rfl⟩) (by simp)
        refine ⟨fun sp => ?_, h2⟩
        rw [h1]
        constructor
        · rintro ⟨a, b, c⟩; exact ⟨a, b, by omega⟩
        · rintro ⟨a, b, c⟩
          refine ⟨a, b, ?_⟩
          by_cases h : sp.stop = i
          · exact absurd (h ▸ hc) b.after
          · omega
      | some s =>
        have e : maskLoop cls ('+' :: cs) i (some s) = maskLoop cls cs (i + 1) (some s) := by simp [maskLoop]
        rw [e]
        obtain ⟨h1, h2⟩ := ih (i + 1) (some s) hd' hlt (by
          intro s' hs; cases hs
          obtain ⟨a, b, c⟩ := hr s rfl
          refine ⟨by omega, fun j h1 h2 => ?_, c⟩
          by_cases h : j = i
          · subst h; exact hc
          · exact b j h1 (by omega)) (by simp)
        refine ⟨fun sp => ?_, h2⟩
        rw [h1]
        constructor
        · rintro ⟨a, b, c⟩; exact ⟨a, b, by omega⟩
        · rintro ⟨a, b, c⟩
          refine ⟨a, b, ?_⟩
          by_cases h : sp.stop = i
          · exact absurd (h ▸ hc) b.after
          · omega
    · have hf : (c == '+') = false := by simpa using hp
      have hno : mask[i]? ≠ some '+' := by rw [hc]; simpa using hp
      obtain ⟨h1, h2⟩ := ih (i + 1) none hd' hlt (by simp) (by
        intro _ j hj
        have : j = i := by omega
        subst this; exact hno)
      -- a run that does not end at `i` ends after `i + 1`, for `i` is no `+`
      have after : ∀ sp : Span, MaskRun mask sp.start sp.stop → i + 1 ≤ sp.stop → i + 1 < sp.stop ∧ i < sp.start := by
        intro sp hm hle
        have hn := hm.nonempty
        have : i < sp.start := by
          by_cases h : i < sp.start
          · exact h
          · exact absurd (hm.inside i (by omega) (by omega)) hno
        omega
      cases run with
      | none =>
        have e : maskLoop cls (c :: cs) i none = maskLoop cls cs (i + 1) none := by simp [maskLoop, hf]
        rw [e]
        refine ⟨fun sp => ?_, h2⟩
        rw [h1]
        constructor
        · rintro ⟨a, b, c⟩; exact ⟨a, b, by omega⟩
        · rintro ⟨a, b, d⟩
          refine ⟨a, b, ?_⟩
          by_cases h : sp.stop = i
          · have hne := b.nonempty
            exact absurd (b.inside (i - 1) (by omega) (by omega)) (hn rfl (i - 1) (by omega))
          · omega
      | some s =>
        obtain ⟨r1, r2, r3⟩ := hr s rfl
        have e : maskLoop cls (c :: cs) i (some s) = ⟨cls, s, i⟩ :: maskLoop cls cs (i + 1) none := by simp [maskLoop, hf]
        rw [e]
        refine ⟨fun sp => ?_, ?_⟩
        · rw [List.mem_cons, h1]
          constructor
          · rintro (rfl | ⟨a, b, d⟩)
            · exact ⟨rfl, ⟨r1, r2, r3, hno⟩, Nat.le_refl _⟩
            · exact ⟨a, b, by omega⟩
          · rintro ⟨a, b, d⟩
            by_cases h : sp.stop = i
            · left
              have hstart : sp.start = s := by
                rcases Nat.lt_trichotomy sp.start s with h' | h' | h'
                · exact absurd (b.inside (s - 1) (by omega) (by omega)) (r3 (s - 1) (by omega))
                · exact h'
                · exact absurd (r2 (sp.start - 1) (by omega) (by have := b.nonempty; omega)) (b.before (sp.start - 1) (by omega))
              obtain ⟨x, y, z⟩ := sp
              simp only at a h hstart
              subst a h hstart; rfl
            · exact .inr ⟨a, b, by omega⟩
        · rw [List.pairwise_cons]
          refine ⟨?_, h2⟩
          intro sp hsp
          obtain ⟨-, b, d⟩ := (h1 sp).1 hsp
          exact (after sp b d).2

/-- A mask has these spans and no others. -/
theorem mask_spans (cls mask : Text) : MaskSpans cls mask (maskLoop cls mask 0 none) := by
  obtain ⟨h1, h2⟩ := maskLoop_spec cls mask mask 0 none rfl (Nat.zero_le _) (by simp) (by intro _ j hj; omega)
  exact ⟨fun sp => by rw [h1]; simp, h2⟩

theorem pairwise_spans_unique : ∀ (l l' : List Span), l.Pairwise (fun a b => a.stop < b.start) →
    l'.Pairwise (fun a b => a.stop < b.start) → (∀ sp ∈ l, sp.start < sp.stop) → (∀ sp, sp ∈ l ↔ sp ∈ l') → l = l' := by
  intro l
  induction l with
  | nil =>
    intro l' _ _ _ h
    cases l' with
    | nil => rfl
    | cons x l' => exact absurd ((h x).2 (List.mem_cons_self ..)) (by simp)
  | cons x l ih =>
    intro l' h1 h2 h3 h
    cases l' with
    | nil => exact absurd ((h x).1 (List.mem_cons_self ..)) (by simp)
    | cons y l' =>
      rw [List.pairwise_cons] at h1 h2
      have hx := h3 x (List.mem_cons_self ..)
      have hy := h3 y ((h y).2 (List.mem_cons_self ..))
      have hxy : x = y := by
        rcases List.mem_cons.1 ((h x).1 (List.mem_cons_self ..)) with e | hm
        · exact e
        · rcases List.mem_cons.1 ((h y).2 (List.mem_cons_self ..)) with e | hm'
          · exact e.symm
          · have a := h2.1 x hm
            have b := h1.1 y hm'
            omega
      subst hxy
      rw [ih l' h1.2 h2.2 (fun sp hsp => h3 sp (List.mem_cons_of_mem _ hsp))]
      intro sp
      constructor
      · intro hm
        rcases List.mem_cons.1 ((h sp).1 (List.mem_cons_of_mem _ hm)) with rfl | hm'
        · have := h1.1 _ hm; omega
        · exact hm'
      · intro hm
        rcases List.mem_cons.1 ((h sp).2 (List.mem_cons_of_mem _ hm)) with rfl | hm'
        · have := h2.1 _ hm; omega
        · exact hm'

theorem maskSpans_iff (cls mask : Text) (spans : List Span) : MaskSpans cls mask spans ↔ spans = maskLoop cls mask 0 none := by
  constructor
  · intro h
    have h' := mask_spans cls mask
    refine pairwise_spans_unique _ _ h.order h'.order (fun sp hsp => ((h.runs sp).1 hsp).2.nonempty) (fun sp => ?_)
    rw [h.runs, h'.runs]
  · rintro rfl; exact mask_spans cls mask

theorem emphasisSpans_iff (ps : List (Text × Text)) (spans : List Span) : EmphasisSpans ps spans ↔
    spans = ps.flatMap fun p => maskLoop p.1 p.2 0 none := by
  constructor
  · intro h
    induction h with
    | nil => rfl
    | cons h _ ih => rw [(maskSpans_iff _ _ _).1 h, ih]; rfl
  · rintro rfl
    induction ps with
    | nil => exact .nil
    | cons p ps ih => exact .cons ((maskSpans_iff _ _ _).2 rfl) ih

theorem yEmphasis_reads : ReadsAs yEmphasis TypeformSrc := by
  intro evs x rest
  unfold yEmphasis
  constructor
  · intro h
    rw [Option.map_eq_some_iff] at h
    obtain ⟨⟨ps, r⟩, h1, h2⟩ := h
    cases h2
    obtain ⟨src, e1, e2⟩ := (yMap_reads _ _ _).1 h1
    exact ⟨src, e1, .mk e2 ((emphasisSpans_iff _ _).2 rfl)⟩
  · rintro ⟨src, rfl, h⟩
    cases h with
    | mk h1 h2 =>
      rw [(yMap_reads _ _ _).2 ⟨src, rfl, h1⟩, (emphasisSpans_iff _ _).1 h2]
      rfl

/-! ## Numbers, cursor, modes -/

theorem parseU16_iff (v : Text) (n : Nat) : parseU16 v = some n ↔ U16Src v n := by
  unfold parseU16 U16Src
  rw [← parseUsize_iff, Option.bind_eq_some_iff]
  constructor
  · rintro ⟨m, h1, h2⟩
    split at h2
    · cases h2; exact ⟨h1, by assumption⟩
    · cases h2
  · rintro ⟨h1, h2⟩
    exact ⟨n, h1, by rw [if_pos h2]⟩

theorem yU16_reads : ReadsAs yU16 (fun src n => ∃ v, ScalarSrc src v ∧ U16Src v n) := by
  intro evs x rest
  unfold yU16
  simp only [Option.bind_eq_some_iff, Option.map_eq_some_iff]
  constructor
  · rintro ⟨⟨v, r⟩, h1, n, h2, h3⟩
    cases h3
    obtain ⟨src, e1, e2⟩ := (yScalar_reads _ _ _).1 h1
    exact ⟨src, e1, v, e2, (parseU16_iff _ _).1 h2⟩
  · rintro ⟨src, rfl, v, h1, h2⟩
    exact ⟨(v, rest), (yScalar_reads _ _ _).2 ⟨src, rfl, h1⟩, x, (parseU16_iff _ _).2 h2, rfl⟩

theorem u16s_iff (vs : List Text) (ns : List Nat) : allSome parseU16 vs = some ns ↔ U16sSrc vs ns := by
  induction vs generalizing ns with
  | nil =>
    constructor
    · intro h; cases h; exact .nil
    · intro h; cases h; rfl
  | cons v vs ih =>
    rw [allSome]
    constructor
    · intro h
      cases e : parseU16 v with
      | none => rw [e] at h; cases h
      | some n =>
        rw [e] at h
        simp only [Option.map_eq_some_iff] at h
        obtain ⟨ns', h1, rfl⟩ := h
        exact .cons ((parseU16_iff _ _).1 e) ((ih _).1 h1)
    · intro h
      cases h with
      | cons h1 h2 =>
        rw [(parseU16_iff _ _).2 h1]
        simp only [(ih _).2 h2, Option.map_some]

theorem yPositions_reads : ReadsAs yPositions (fun src ns => ∃ vs, SeqSrc src vs ∧ U16sSrc vs ns) := by
  intro evs x rest
  unfold yPositions
  simp only [Option.bind_eq_some_iff, Option.map_eq_some_iff]
  constructor
  · rintro ⟨⟨v, r⟩, h1, n, h2, h3⟩
    cases h3
    obtain ⟨src, e1, e2⟩ := (yList_reads _ _ _).1 h1
    exact ⟨src, e1, v, e2, (u16s_iff _ _).1 h2⟩
  · rintro ⟨src, rfl, v, h1, h2⟩
    exact ⟨(v, rest), (yList_reads _ _ _).2 ⟨src, rfl, h1⟩, x, (u16s_iff _ _).2 h2, rfl⟩

theorem yCursor_reads : ReadsAs yCursor CursorSrc := by
  intro evs x rest
  constructor
  · intro h
    unfold yCursor at h
    split at h
    · simp only [Option.bind_eq_some_iff, Option.map_eq_some_iff] at h
      obtain ⟨⟨a, r1⟩, h1, ⟨b, r2⟩, h2, ⟨_, r3⟩, h3, h4⟩ := h
      cases h4
      obtain ⟨s1, e1, v, e1', hv⟩ := (yU16_reads _ _ _).1 h1
      obtain ⟨s2, e2, w, e2', hw⟩ := (yU16_reads _ _ _).1 h2
      have e3 := (yEvent_iff _ _ _ _).1 h3
      cases e1'
      cases e2'
      simp only at e1 e2 e3
      rename_i bv bw
      refine ⟨_, ?_, .tuple (.mk (.cons (block := bv) (.cons (block := bw) .nil))) hv hw⟩
      rw [e1, e2, e3]; rfl
    · rw [Option.map_eq_some_iff] at h
      obtain ⟨⟨a, r1⟩, h1, h2⟩ := h
      cases h2
      obtain ⟨s1, e1, v, e1', hv⟩ := (yU16_reads _ _ _).1 h1
      exact ⟨s1, e1, .single e1' hv⟩
  · rintro ⟨src, rfl, h⟩
    cases h with
    | @single v n h1 h2 =>
      have := (yU16_reads (src ++ rest) n rest).2 ⟨src, rfl, v, h1, h2⟩
      cases h1
      rw [List.singleton_append] at *
      rw [yCursor.eq_def]
      simp only [this, Option.map_some]
    | @tuple v w n m h1 h2 h3 =>
      cases h1 with
      | mk h1 => cases h1 with
        | cons h1 => cases h1 with
          | cons h1 =>
            cases h1
            simp [yCursor, yU16, yScalar, yEvent, (parseU16_iff _ _).2 h2, (parseU16_iff _ _).2 h3]

theorem transModeOf_iff (v : Text) (m : TransMode) : transModeOf v = some m ↔ v = transModeName m := by
  constructor
  · intro h
    unfold transModeOf at h
    repeat' split at h
    all_goals first | (cases h; assumption) | cases h
  · rintro rfl
    cases m <;> decide

theorem modes_iff (vs : List Text) (ms : List TransMode) : allSome transModeOf vs = some ms ↔ vs = ms.map transModeName := by
  induction vs generalizing ms with
  | nil =>
    constructor
    · intro h; cases h; rfl
    · intro h
      cases ms with
      | nil => rfl
      | cons _ _ => simp at h
  | cons v vs ih =>
    rw [allSome]
    constructor
    · intro h
      cases e : transModeOf v with
      | none => rw [e] at h; cases h
      | some m =>
        rw [e] at h
        simp only [Option.map_eq_some_iff] at h
        obtain ⟨ms', h1, rfl⟩ := h
        rw [List.map_cons, ← (ih _).1 h1, (transModeOf_iff _ _).1 e]
    · intro h
      cases ms with
      | nil => simp at h
      | cons m ms =>
        simp only [List.map_cons, List.cons.injEq] at h
        rw [(transModeOf_iff _ _).2 h.1]
        simp only [(ih _).2 h.2, Option.map_some]

theorem yModes_reads : ReadsAs yModes (fun src ms => SeqSrc src (ms.map transModeName)) := by
  intro evs x rest
  unfold yModes
  simp only [Option.bind_eq_some_iff, Option.map_eq_some_iff]
  constructor
  · rintro ⟨⟨v, r⟩, h1, n, h2, h3⟩
    cases h3
    obtain ⟨src, e1, e2⟩ := (yList_reads _ _ _).1 h1
    have := (modes_iff _ _).1 h2
    simp only at this
    subst this
    exact ⟨src, e1, e2⟩
  · rintro ⟨src, rfl, h⟩
    exact ⟨(_, rest), (yList_reads _ _ _).2 ⟨src, rfl, h⟩, x, (modes_iff _ _).2 rfl, rfl⟩

/-! ## Tests -/

theorem reads_map {α β : Type} {p : YP α} {R : List Ev → α → Prop} (h : ReadsAs p R) (f : α → β) (evs rest : List Ev) (y : β) :
    (p evs).map (fun r => (f r.1, r.2)) = some (y, rest) ↔ ∃ src x, evs = src ++ rest ∧ R src x ∧ y = f x := by
  rw [Option.map_eq_some_iff]
  constructor
  · rintro ⟨⟨x, r⟩, h1, h2⟩
    cases h2
    obtain ⟨src, e, e'⟩ := (h _ _ _).1 h1
    exact ⟨src, x, e, e', rfl⟩
  · rintro ⟨src, x, rfl, h1, rfl⟩
    exact ⟨(x, rest), (h _ _ _).2 ⟨src, rfl, h1⟩, rfl⟩

theorem yOption_reads (key : Text) (t : Test) : ReadsAs (yOption key t) (OptionSrc t key) := by
  intro evs x rest
  have k1 := yXfail_reads
  constructor
  · intro h
    unfold yOption at h
    split at h
    · subst key
      obtain ⟨src, y, e, e', rfl⟩ := (reads_map yXfail_reads (fun r => { t with xfail := r }) _ _ _).1 h
      exact ⟨src, e, .xfail e'⟩
    split at h
    · subst key
      obtain ⟨src, y, e, e', rfl⟩ := (reads_map yEmphasis_reads (fun r => { t with emphasis := r }) _ _ _).1 h
      exact ⟨src, e, .typeform e'⟩
    split at h
    · subst key
      obtain ⟨src, y, e, e', rfl⟩ := (reads_map yEmphasis_reads (fun r => { t with expectedEmphasis := r }) _ _ _).1 h
      exact ⟨src, e, .expectedTypeform e'⟩
    split at h
    · subst key
      obtain ⟨src, y, e, ⟨vs, e1, e2⟩, rfl⟩ := (reads_map yPositions_reads (fun r => { t with inputPos := r }) _ _ _).1 h
      exact ⟨src, e, .inputPos e1 e2⟩
    split at h
    · subst key
      obtain ⟨src, y, e, ⟨vs, e1, e2⟩, rfl⟩ := (reads_map yPositions_reads (fun r => { t with outputPos := r }) _ _ _).1 h
      exact ⟨src, e, .outputPos e1 e2⟩
    split at h
    · subst key
      obtain ⟨src, y, e, e', rfl⟩ := (reads_map yCursor_reads (fun r => { t with cursorPos := some r }) _ _ _).1 h
      exact ⟨src, e, .cursorPos e'⟩
    split at h
    · subst key
      obtain ⟨src, y, e, e', rfl⟩ := (reads_map yModes_reads (fun r => { t with modes := r }) _ _ _).1 h
      exact ⟨src, e, .mode e'⟩
    split at h
    · subst key
      obtain ⟨src, y, e, ⟨v, e1, e2⟩, rfl⟩ := (reads_map yU16_reads (fun r => { t with maxOutputLength := some r }) _ _ _).1 h
      exact ⟨src, e, .maxOutputLength e1 e2⟩
    split at h
    · subst key
      obtain ⟨src, y, e, ⟨v, e1, e2⟩, rfl⟩ := (reads_map yU16_reads (fun r => { t with realInputLength := some r }) _ _ _).1 h
      exact ⟨src, e, .realInputLength e1 e2⟩
    · cases h
  · rintro ⟨src, rfl, h⟩
    unfold yOption
    cases h with
    | xfail h =>
      rw [if_pos rfl]
      exact (reads_map yXfail_reads (fun r => { t with xfail := r }) _ _ _).2 ⟨src, _, rfl, h, rfl⟩
    | typeform h =>
      rw [if_neg (by decide), if_pos rfl]
      exact (reads_map yEmphasis_reads (fun r => { t with emphasis := r }) _ _ _).2 ⟨src, _, rfl, h, rfl⟩
    | expectedTypeform h =>
      rw [if_neg (by decide), if_neg (by decide), if_pos rfl]
      exact (reads_map yEmphasis_reads (fun r => { t with expectedEmphasis := r }) _ _ _).2 ⟨src, _, rfl, h, rfl⟩
    | inputPos h h' =>
      rw [if_neg (by decide), if_neg (by decide), if_neg (by decide), if_pos rfl]
      exact (reads_map yPositions_reads (fun r => { t with inputPos := r }) _ _ _).2 ⟨src, _, rfl, ⟨_, h, h'⟩, rfl⟩
    | outputPos h h' =>
      rw [if_neg (by decide), if_neg (by decide), if_neg (by decide), if_neg (by decide), if_pos rfl]
      exact (reads_map yPositions_reads (fun r => { t with outputPos := r }) _ _ _).2 ⟨src, _, rfl, ⟨_, h, h'⟩, rfl⟩
    | cursorPos h =>
      rw [if_neg (by decide), if_neg (by decide), if_neg (by decide), if_neg (by decide), if_neg (by decide), if_pos rfl]
      exact (reads_map yCursor_reads (fun r => { t with cursorPos := some r }) _ _ _).2 ⟨src, _, rfl, h, rfl⟩
    | mode h =>
      rw [if_neg (by decide), if_neg (by decide), if_neg (by decide), if_neg (by decide), if_neg (by decide),
        if_neg (by decide), if_pos rfl]
      exact (reads_map yModes_reads (fun r => { t with modes := r }) _ _ _).2 ⟨src, _, rfl, h, rfl⟩
    | maxOutputLength h h' =>
      rw [if_neg (by decide), if_neg (by decide), if_neg (by decide), if_neg (by decide), if_neg (by decide),
        if_neg (by decide), if_neg (by decide), if_pos rfl]
      exact (reads_map yU16_reads (fun r => { t with maxOutputLength := some r }) _ _ _).2 ⟨src, _, rfl, ⟨_, h, h'⟩, rfl⟩
    | realInputLength h h' =>
      rw [if_neg (by decide), if_neg (by decide), if_neg (by decide), if_neg (by decide), if_neg (by decide),
        if_neg (by decide), if_neg (by decide), if_neg (by decide), if_pos rfl]
      exact (reads_map yU16_reads (fun r => { t with realInputLength := some r }) _ _ _).2 ⟨src, _, rfl, ⟨_, h, h'⟩, rfl⟩

theorem yOptions_src : ∀ (n : Nat) (t : Test) (evs : List Ev) (t' : Test) (rest : List Ev), yOptions n t evs = some (t', rest) →
    ∃ src, evs = src ++ rest ∧ OptionsSrc t src t' := by
  intro n
  induction n with
  | zero =>
    intro t evs t' rest h
    rw [yOptions.eq_def] at h
    simp only at h
    split at h
    · cases h
    · cases h; exact ⟨[], rfl, .nil⟩
  | succ n ih =>
    intro t evs t' rest h
    by_cases hev : ∃ key b evs', evs = .scalar key b :: evs'
    · obtain ⟨key, b, evs, rfl⟩ := hev
      rw [yOptions, Option.bind_eq_some_iff] at h
      obtain ⟨⟨t1, r1⟩, h1, h2⟩ := h
      obtain ⟨src, e, e'⟩ := (yOption_reads _ _ _ _ _).1 h1
      obtain ⟨src', e2, e2'⟩ := ih _ _ _ _ h2
      simp only at e2
      refine ⟨_, ?_, .cons (b := b) e' e2'⟩
      rw [e, e2]; simp
    · rw [yOptions.eq_def] at h
      split at h
      · exact absurd ⟨_, _, _, rfl⟩ hev
      · split at h
        · exact absurd ⟨_, _, _, rfl⟩ hev
        · cases h; exact ⟨[], rfl, .nil⟩

theorem yOptions_of {t : Test} {src : List Ev} {t' : Test} (h : OptionsSrc t src t') (e : Ev) (rest : List Ev)
    (he : ∀ v b, e ≠ .scalar v b) : ∀ n, src.length ≤ n → yOptions n t (src ++ e :: rest) = some (t', e :: rest) := by
  induction h with
  | nil =>
    intro n _
    cases n <;> (cases e with
      | scalar v b => exact absurd rfl (he v b)
      | _ => rfl)
  | @cons t key b evs t1 evs' t2 h1 h2 ih =>
    intro n hn
    cases n with
    | zero => simp at hn
    | succ n =>
      rw [List.cons_append, List.cons_append, yOptions, List.append_assoc,
        (yOption_reads key t (evs ++ (evs' ++ e :: rest)) t1 (evs' ++ e :: rest)).2 ⟨evs, rfl, h1⟩, Option.bind_some]
      exact ih n (by simp at hn; omega)

theorem yTexts_src (evs rest : List Ev) (x y : Text) (h : yTexts evs = some ((x, y), rest)) :
    (∃ v b w b', evs = .scalar v b :: .scalar w b' :: rest ∧ Unescaped v x ∧ Unescaped w y ∧ ∀ u c r, rest ≠ .scalar u c :: r) ∨
    (∃ d b v b' w b'' z, evs = .scalar d b :: .scalar v b' :: .scalar w b'' :: rest ∧ Unescaped d z ∧ Unescaped v x ∧
      Unescaped w y) := by
  unfold yTexts at h
  simp only [Option.bind_eq_some_iff] at h
  obtain ⟨⟨v, r1⟩, h1, x', h2, ⟨w, r2⟩, h3, y', h4, h5⟩ := h
  obtain ⟨s1, e1, e1'⟩ := (yScalar_reads _ _ _).1 h1
  obtain ⟨s2, e2, e2'⟩ := (yScalar_reads _ _ _).1 h3
  cases e1'
  cases e2'
  rename_i b b'
  simp only at e1 e2 h5 h2 h4
  split at h5
  · rename_i u c r
    rw [Option.map_eq_some_iff] at h5
    obtain ⟨z, h5, h6⟩ := h5
    simp only [Prod.mk.injEq] at h6
    obtain ⟨⟨rfl, rfl⟩, rfl⟩ := h6
    refine .inr ⟨v, b, w, b', u, c, x', by rw [e1, e2]; rfl, (C35_decoding_is_exact _ _ _).1 h2, (C35_decoding_is_exact _ _ _).1 h4,
      (C35_decoding_is_exact _ _ _).1 h5⟩
  · rename_i hne
    cases h5
    exact .inl ⟨v, b, w, b', by rw [e1, e2]; rfl, (C35_decoding_is_exact _ _ _).1 h2, (C35_decoding_is_exact _ _ _).1 h4,
      fun u c r e => hne u c r e⟩

theorem yTexts_two (v w x y : Text) (b b' : Bool) (rest : List Ev) (h1 : Unescaped v x) (h2 : Unescaped w y)
    (h : ∀ u c r, rest ≠ .scalar u c :: r) : yTexts (.scalar v b :: .scalar w b' :: rest) = some ((x, y), rest) := by
  unfold yTexts
  rw [yScalar, Option.bind_some, (C35_decoding_is_exact _ _ _).2 h1, Option.bind_some]
  simp only [yScalar, Option.bind_some]
  rw [(C35_decoding_is_exact _ _ _).2 h2, Option.bind_some]

theorem yTexts_three (d v w z x y : Text) (b b' b'' : Bool) (rest : List Ev) (h0 : Unescaped d z) (h1 : Unescaped v x)
    (h2 : Unescaped w y) :
    yTexts (.scalar d b :: .scalar v b' :: .scalar w b'' :: rest) = some ((x, y), rest) := by
  unfold yTexts
  rw [yScalar, Option.bind_some, (C35_decoding_is_exact _ _ _).2 h0, Option.bind_some]
  simp only [yScalar, Option.bind_some]
  rw [(C35_decoding_is_exact _ _ _).2 h1, Option.bind_some, (C35_decoding_is_exact _ _ _).2 h2]
  rfl

theorem yTestOptions_src (t t' : Test) (evs rest : List Ev) (h : yTestOptions t evs = some (t', rest)) :
    ∃ src, evs = src ++ rest ∧ TestTail t src t' := by
  unfold yTestOptions at h
  split at h
  · simp only [Option.bind_eq_some_iff, Option.map_eq_some_iff] at h
    obtain ⟨⟨t1, r1⟩, h1, ⟨_, r2⟩, h2, h3⟩ := h
    cases h3
    obtain ⟨src, e, e'⟩ := yOptions_src _ _ _ _ _ h1
    have e2 := (yEvent_iff _ _ _ _).1 h2
    simp only at e2
    refine ⟨_, ?_, .options e'⟩
    rw [e, e2]; simp
  · cases h; exact ⟨[], rfl, .bare⟩

theorem yTestOptions_of (t t' : Test) (src rest : List Ev) (h : TestTail t src t') :
    yTestOptions t (src ++ .seqEnd :: rest) = some (t', .seqEnd :: rest) := by
  cases h with
  | bare => rfl
  | @options evs _ h =>
    rw [List.cons_append, List.cons_append, yTestOptions, List.append_assoc, List.singleton_append,
      yOptions_of h .mapEnd _ (by simp) _ (by simp), Option.bind_some, yEvent_self]
    rfl

theorem bareTest_eq (x y : Text) : bareTest x y = plainTest x y := rfl

theorem yTest_reads : ReadsAs yTest YTestSrc := by
  intro evs t rest
  constructor
  · intro h
    unfold yTest at h
    simp only [Option.bind_eq_some_iff, Option.map_eq_some_iff] at h
    obtain ⟨⟨_, r1⟩, h1, ⟨⟨x, y⟩, r2⟩, h2, ⟨t1, r3⟩, h3, ⟨_, r4⟩, h4, h5⟩ := h
    cases h5
    have e1 := (yEvent_iff _ _ _ _).1 h1
    have e4 := (yEvent_iff _ _ _ _).1 h4
    obtain ⟨src, e3, e3'⟩ := yTestOptions_src _ _ _ _ h3
    simp only at e1 e4 e3 e3' h2
    rw [← bareTest_eq] at e3'
    rcases yTexts_src _ _ _ _ h2 with ⟨v, b, w, b', e2, d1, d2, -⟩ | ⟨d, b, v, b', w, b'', z, e2, d0, d1, d2⟩
    · refine ⟨_, ?_, .two (b := b) (b' := b') d1 d2 e3'⟩
      rw [e1, e2, e3, e4]; simp
    · refine ⟨_, ?_, .three (b := b) (b' := b') (b'' := b'') d0 d1 d2 e3'⟩
      rw [e1, e2, e3, e4]; simp
  · rintro ⟨src, rfl, h⟩
    cases h with
    | @two v b w b' x y tail _ h1 h2 h3 =>
      have ht := yTestOptions_of _ _ _ rest h3
      simp only [List.cons_append, List.append_assoc, List.nil_append]
      rw [yTest, yEvent_self, Option.bind_some]
      simp only
      rw [yTexts_two v w x y b b' _ h1 h2 (by
        intro u c r e
        cases h3 with
        | bare => cases e
        | options _ => cases e), Option.bind_some]
      simp only [← bareTest_eq]
      rw [ht, Option.bind_some, yEvent_self]
      rfl
    | @three d b v b' w b'' z x y tail _ h0 h1 h2 h3 =>
      have ht := yTestOptions_of _ _ _ rest h3
      simp only [List.cons_append, List.append_assoc, List.nil_append]
      rw [yTest, yEvent_self, Option.bind_some]
      simp only
      rw [yTexts_three d v w z x y b b' b'' _ h0 h1 h2, Option.bind_some]
      simp only [← bareTest_eq]
      rw [ht, Option.bind_some, yEvent_self]
      rfl

theorem yTestLoop_src : ∀ (n : Nat) (evs : List Ev) (ts : List Test) (rest : List Ev), yTestLoop n evs = some (ts, rest) →
    ∃ src, evs = src ++ rest ∧ YTestsSrc src ts := by
  intro n
  induction n with
  | zero =>
    intro evs ts rest h
    rw [yTestLoop.eq_def] at h
    simp only at h
    split at h
    · cases h
    · cases h; exact ⟨[], rfl, .nil⟩
  | succ n ih =>
    intro evs ts rest h
    by_cases hev : ∃ evs', evs = .seqStart :: evs'
    · obtain ⟨evs, rfl⟩ := hev
      rw [yTestLoop] at h
      simp only [Option.bind_eq_some_iff, Option.map_eq_some_iff] at h
      obtain ⟨⟨t1, r1⟩, h1, ⟨ts', r2⟩, h2, h3⟩ := h
      cases h3
      obtain ⟨src, e, e'⟩ := (yTest_reads _ _ _).1 h1
      obtain ⟨src', e2, e2'⟩ := ih _ _ _ h2
      simp only at e2
      refine ⟨_, ?_, .cons e' e2'⟩
      rw [e, e2]; simp
    · rw [yTestLoop.eq_def] at h
      split at h
      · exact absurd ⟨_, rfl⟩ hev
      · split at h
        · exact absurd ⟨_, rfl⟩ hev
        · cases h; exact ⟨[], rfl, .nil⟩

theorem yTest_head {src : List Ev} {t : Test} (h : YTestSrc src t) : ∃ r, src = .seqStart :: r := by
  cases h with
  | two => exact ⟨_, rfl⟩
  | three => exact ⟨_, rfl⟩

theorem yTestLoop_of {src : List Ev} {ts : List Test} (h : YTestsSrc src ts) (rest : List Ev) :
    ∀ n, src.length ≤ n → yTestLoop n (src ++ .seqEnd :: rest) = some (ts, .seqEnd :: rest) := by
  induction h with
  | nil =>
    intro n _
    cases n <;> rfl
  | @cons evs t evs' ts h1 h2 ih =>
    intro n hn
    obtain ⟨r, rfl⟩ := yTest_head h1
    cases n with
    | zero => simp at hn
    | succ n =>
      have e := (yTest_reads (.seqStart :: r ++ (evs' ++ .seqEnd :: rest)) t (evs' ++ .seqEnd :: rest)).2 ⟨_, rfl, h1⟩
      rw [List.cons_append] at e
      rw [List.cons_append, List.cons_append, yTestLoop, List.append_assoc, e, Option.bind_some]
      simp only
      rw [ih n (by simp at hn; omega)]
      rfl

theorem yTests_reads : ReadsAs yTests (fun src ts => ∃ evs, src = .seqStart :: evs ++ [.seqEnd] ∧ YTestsSrc evs ts) := by
  intro evs ts rest
  unfold yTests
  constructor
  · intro h
    simp only [Option.bind_eq_some_iff, Option.map_eq_some_iff] at h
    obtain ⟨⟨_, r1⟩, h1, ⟨ts', r2⟩, h2, ⟨_, r3⟩, h3, h4⟩ := h
    cases h4
    have e1 := (yEvent_iff _ _ _ _).1 h1
    have e3 := (yEvent_iff _ _ _ _).1 h3
    obtain ⟨src, e2, e2'⟩ := yTestLoop_src _ _ _ _ h2
    simp only at e1 e2 e3
    refine ⟨_, ?_, src, rfl, e2'⟩
    rw [e1, e2, e3]; simp
  · rintro ⟨src, rfl, evs, rfl, h⟩
    rw [List.cons_append, List.cons_append, yEvent_self, Option.bind_some, List.append_assoc, List.singleton_append,
      yTestLoop_of h rest _ (by simp), Option.bind_some, yEvent_self]
    rfl

/-! ## Entries -/

/-- The variables after an entry. -/
def YState.after (s : YState) : Entry → YState
  | .display d => { s with display := some d, afterTable := false }
  | .table t => { s with tables := (if s.afterTable then s.tables else []) ++ [t], afterTable := true }
  | .flags m => { s with mode := m, afterTable := false }
  | .tests ts => { s with suites := s.suites ++ [⟨s.display, s.tables, s.mode, ts⟩], afterTable := false }

theorem yEntry_iff (key : Text) (b : Bool) (s s' : YState) (evs rest : List Ev) : yEntry key s evs = some (s', rest) ↔
    ∃ src e, evs = src ++ rest ∧ EntrySrc (.scalar key b :: src) e ∧ s' = s.after e := by
  constructor
  · intro h
    unfold yEntry at h
    split at h
    · subst key
      obtain ⟨src, y, e, e', rfl⟩ := (reads_map yDisplay_reads (fun r => { s with display := some r, afterTable := false }) _ _ _).1 h
      exact ⟨src, _, e, .display e', rfl⟩
    split at h
    · subst key
      obtain ⟨src, y, e, e', rfl⟩ := (reads_map yTable_reads
        (fun r => { s with tables := (if s.afterTable then s.tables else []) ++ [r], afterTable := true }) _ _ _).1 h
      exact ⟨src, _, e, .table e', rfl⟩
    split at h
    · subst key
      obtain ⟨src, y, e, e', rfl⟩ := (reads_map yFlags_reads (fun r => { s with mode := r, afterTable := false }) _ _ _).1 h
      exact ⟨src, _, e, .flags e', rfl⟩
    split at h
    · subst key
      obtain ⟨src, y, e, ⟨evs', rfl, e'⟩, rfl⟩ := (reads_map yTests_reads
        (fun r => { s with suites := s.suites ++ [(⟨s.display, s.tables, s.mode, r⟩ : Suite)], afterTable := false }) _ _ _).1 h
      exact ⟨_, _, e, .tests e', rfl⟩
    · cases h
  · rintro ⟨src, e, rfl, h, rfl⟩
    unfold yEntry
    generalize hk : Ev.scalar key b :: src = all at h
    cases h with
    | display h =>
      cases hk
      rw [if_pos rfl]
      exact (reads_map yDisplay_reads (fun r => { s with display := some r, afterTable := false }) _ _ _).2 ⟨src, _, rfl, h, rfl⟩
    | table h =>
      cases hk
      rw [if_neg (by decide), if_pos rfl]
      exact (reads_map yTable_reads
        (fun r => { s with tables := (if s.afterTable then s.tables else []) ++ [r], afterTable := true }) _ _ _).2
          ⟨src, _, rfl, h, rfl⟩
    | flags h =>
      cases hk
      rw [if_neg (by decide), if_neg (by decide), if_pos rfl]
      exact (reads_map yFlags_reads (fun r => { s with mode := r, afterTable := false }) _ _ _).2 ⟨src, _, rfl, h, rfl⟩
    | tests h =>
      rw [List.cons_append, List.cons_append] at hk
      obtain ⟨hk1, hk2⟩ := List.cons.inj hk
      cases hk1
      subst hk2
      rw [if_neg (by decide), if_neg (by decide), if_neg (by decide), if_pos rfl]
      exact (reads_map yTests_reads
        (fun r => { s with suites := s.suites ++ [(⟨s.display, s.tables, s.mode, r⟩ : Suite)], afterTable := false }) _ _ _).2
          ⟨_, _, rfl, ⟨_, rfl, h⟩, rfl⟩

theorem yEntries_src : ∀ (n : Nat) (s s' : YState) (evs rest : List Ev), yEntries n s evs = some (s', rest) →
    ∃ src es, evs = src ++ rest ∧ EntriesSrc src es ∧ s' = es.foldl YState.after s := by
  intro n
  induction n with
  | zero =>
    intro s s' evs rest h
    rw [yEntries.eq_def] at h
    simp only at h
    split at h
    · cases h
    · cases h; exact ⟨[], [], rfl, .nil, rfl⟩
  | succ n ih =>
    intro s s' evs rest h
    by_cases hev : ∃ key b evs', evs = .scalar key b :: evs'
    · obtain ⟨key, b, evs, rfl⟩ := hev
      rw [yEntries] at h
      simp only [Option.bind_eq_some_iff] at h
      obtain ⟨⟨s1, r1⟩, h1, h2⟩ := h
      obtain ⟨src, e, e1, e2, e3⟩ := (yEntry_iff key b _ _ _ _).1 h1
      obtain ⟨src', es, e4, e5, e6⟩ := ih _ _ _ _ h2
      simp only at e4 e6
      refine ⟨_, e :: es, ?_, .cons e2 e5, ?_⟩
      · rw [e1, e4]; simp
      · rw [e6, e3]; rfl
    · rw [yEntries.eq_def] at h
      split at h
      · exact absurd ⟨_, _, _, rfl⟩ hev
      · split at h
        · exact absurd ⟨_, _, _, rfl⟩ hev
        · cases h; exact ⟨[], [], rfl, .nil, rfl⟩

theorem entry_head {src : List Ev} {e : Entry} (h : EntrySrc src e) : ∃ key b r, src = .scalar key b :: r := by
  cases h with
  | display => exact ⟨_, _, _, rfl⟩
  | table => exact ⟨_, _, _, rfl⟩
  | flags => exact ⟨_, _, _, rfl⟩
  | tests => exact ⟨_, _, _, rfl⟩

theorem yEntries_of {src : List Ev} {es : List Entry} (h : EntriesSrc src es) (rest : List Ev) :
    ∀ n s, src.length ≤ n → yEntries n s (src ++ .mapEnd :: rest) = some (es.foldl YState.after s, .mapEnd :: rest) := by
  induction h with
  | nil =>
    intro n s _
    cases n <;> rfl
  | @cons evs e evs' es h1 h2 ih =>
    intro n s hn
    obtain ⟨key, b, r, rfl⟩ := entry_head h1
    cases n with
    | zero => simp at hn
    | succ n =>
      have e := (yEntry_iff key b s (s.after e) (r ++ (evs' ++ .mapEnd :: rest)) (evs' ++ .mapEnd :: rest)).2
        ⟨r, e, rfl, h1, rfl⟩
      rw [List.cons_append, List.cons_append, yEntries, List.append_assoc, e, Option.bind_some]
      exact ih n _ (by simp at hn; omega)

theorem yamlSuites_iff (evs : List Ev) (ss : List Suite) : yamlSuites evs = some ss ↔
    ∃ src rest es, evs = src ++ rest ∧ FileSrc src es ∧ ss = (es.foldl YState.after ⟨none, [], .forward, false, []⟩).suites := by
  unfold yamlSuites
  constructor
  · intro h
    simp only [Option.bind_eq_some_iff, Option.map_eq_some_iff] at h
    obtain ⟨⟨_, r1⟩, h1, ⟨_, r2⟩, h2, ⟨_, r3⟩, h3, ⟨s, r4⟩, h4, ⟨_, r5⟩, h5, ⟨_, r6⟩, h6, ⟨_, r7⟩, h7, rfl⟩ := h
    have e1 := (yEvent_iff _ _ _ _).1 h1
    have e2 := (yEvent_iff _ _ _ _).1 h2
    have e3 := (yEvent_iff _ _ _ _).1 h3
    have e5 := (yEvent_iff _ _ _ _).1 h5
    have e6 := (yEvent_iff _ _ _ _).1 h6
    have e7 := (yEvent_iff _ _ _ _).1 h7
    obtain ⟨src, es, e4, e4', e4''⟩ := yEntries_src _ _ _ _ _ h4
    simp only at e1 e2 e3 e4 e5 e6 e7 e4''
    refine ⟨_, r7, es, ?_, .mk e4', by rw [e4'']⟩
    rw [e1, e2, e3, e4, e5, e6, e7]; simp
  · rintro ⟨src, rest, es, rfl, h, rfl⟩
    cases h with
    | @mk evs _ h =>
      simp only [List.cons_append, List.append_assoc, List.nil_append]
      rw [yEvent_self, Option.bind_some]; simp only
      rw [yEvent_self, Option.bind_some]; simp only
      rw [yEvent_self, Option.bind_some]; simp only
      rw [yEntries_of h _ _ _ (by simp), Option.bind_some]; simp only
      rw [yEvent_self, Option.bind_some]; simp only
      rw [yEvent_self, Option.bind_some]; simp only
      rw [yEvent_self]
      rfl

/-! ## The suites -/

/-- The variables of the reader are those in force after the entries `pre`. -/
structure InForce (pre : List Entry) (s : YState) : Prop where
  display : DisplayIn pre s.display
  mode : ModeIn pre s.mode
  tables : TablesIn pre s.tables
  last : s.afterTable = true ↔ ∃ t, pre.getLast? = some (.table t)

theorem InForce.start : InForce [] ⟨none, [], .forward, false, []⟩ :=
  ⟨.inl ⟨rfl, by simp⟩, .inl ⟨rfl, by simp⟩, .inl ⟨rfl, by simp⟩, by simp⟩

theorem displayIn_keep {pre : List Entry} {d : Option TestDisplay} {e : Entry} (h : DisplayIn pre d) (he : ∀ x, e ≠ .display x) :
    DisplayIn (pre ++ [e]) d := by
  rcases h with ⟨rfl, h⟩ | ⟨x, a, b, rfl, rfl, h⟩
  · exact .inl ⟨rfl, fun x hx => by
      rcases List.mem_append.1 hx with hx | hx
      · exact h x hx
      · exact he x (List.mem_singleton.1 hx).symm⟩
  · refine .inr ⟨x, a, b ++ [e], rfl, by simp, fun y hy => ?_⟩
    rcases List.mem_append.1 hy with hy | hy
    · exact h y hy
    · exact he y (List.mem_singleton.1 hy).symm

theorem modeIn_keep {pre : List Entry} {m : TestMode} {e : Entry} (h : ModeIn pre m) (he : ∀ x, e ≠ .flags x) :
    ModeIn (pre ++ [e]) m := by
  rcases h with ⟨rfl, h⟩ | ⟨a, b, rfl, h⟩
  · exact .inl ⟨rfl, fun x hx => by
      rcases List.mem_append.1 hx with hx | hx
      · exact h x hx
      · exact he x (List.mem_singleton.1 hx).symm⟩
  · refine .inr ⟨a, b ++ [e], by simp, fun y hy => ?_⟩
    rcases List.mem_append.1 hy with hy | hy
    · exact h y hy
    · exact he y (List.mem_singleton.1 hy).symm

theorem tablesIn_keep {pre : List Entry} {ts : List TestTable} {e : Entry} (h : TablesIn pre ts) (he : ∀ x, e ≠ .table x) :
    TablesIn (pre ++ [e]) ts := by
  rcases h with ⟨rfl, h⟩ | ⟨a, b, hne, rfl, h, h'⟩
  · exact .inl ⟨rfl, fun x hx => by
      rcases List.mem_append.1 hx with hx | hx
      · exact h x hx
      · exact he x (List.mem_singleton.1 hx).symm⟩
  · refine .inr ⟨a, b ++ [e], hne, by simp, fun y hy => ?_, h'⟩
    rcases List.mem_append.1 hy with hy | hy
    · exact h y hy
    · exact he y (List.mem_singleton.1 hy).symm

theorem tablesIn_add {pre : List Entry} {ts : List TestTable} {b : Bool} (t : TestTable) (h : TablesIn pre ts)
    (hb : b = true ↔ ∃ t, pre.getLast? = some (.table t)) :
    TablesIn (pre ++ [.table t]) ((if b then ts else []) ++ [t]) := by
  cases b with
  | false =>
    refine .inr ⟨pre, [], by simp, by simp, by simp, fun y hy => ?_⟩
    exact absurd (hb.2 ⟨y, hy⟩) (by simp)
  | true =>
    obtain ⟨y, hy⟩ := hb.1 rfl
    rcases h with ⟨rfl, h⟩ | ⟨a, b, hne, rfl, h, h'⟩
    · exact absurd (List.mem_of_getLast? hy) (h y)
    · cases b with
      | cons e b =>
        have : (e :: b).getLast? = some (.table y) := by
          rw [List.getLast?_append] at hy
          cases hl : (e :: b).getLast? with
          | none => simp at hl
          | some z => rw [hl] at hy; simpa using hy
        exact absurd (List.mem_of_getLast? this) (h y)
      | nil =>
        refine .inr ⟨a, [], by simp, by simp, by simp, h'⟩

theorem InForce.step {pre : List Entry} {s : YState} (h : InForce pre s) (e : Entry) : InForce (pre ++ [e]) (s.after e) := by
  cases e with
  | display d =>
    exact ⟨.inr ⟨d, pre, [], rfl, rfl, by simp⟩, modeIn_keep h.mode (by simp), tablesIn_keep h.tables (by simp),
      by simp [YState.after]⟩
  | table t =>
    exact ⟨displayIn_keep h.display (by simp), modeIn_keep h.mode (by simp), tablesIn_add t h.tables h.last,
      by simp [YState.after]⟩
  | flags m =>
    exact ⟨displayIn_keep h.display (by simp), .inr ⟨pre, [], rfl, by simp⟩, tablesIn_keep h.tables (by simp),
      by simp [YState.after]⟩
  | tests ts =>
    exact ⟨displayIn_keep h.display (by simp), modeIn_keep h.mode (by simp), tablesIn_keep h.tables (by simp),
      by simp [YState.after]⟩

theorem suites_from : ∀ (es pre : List Entry) (s : YState), InForce pre s →
    ∃ ss, (es.foldl YState.after s).suites = s.suites ++ ss ∧ SuitesFrom pre es ss := by
  intro es
  induction es with
  | nil => intro pre s _; exact ⟨[], by simp, .done⟩
  | cons e es ih =>
    intro pre s h
    obtain ⟨ss, h1, h2⟩ := ih (pre ++ [e]) (s.after e) (h.step e)
    rw [List.foldl_cons, h1]
    cases e with
    | tests ts =>
      refine ⟨⟨s.display, s.tables, s.mode, ts⟩ :: ss, ?_, .tests h.display h.tables h.mode h2⟩
      simp [YState.after]
    | display d => exact ⟨ss, rfl, .other (by simp) h2⟩
    | table d => exact ⟨ss, rfl, .other (by simp) h2⟩
    | flags d => exact ⟨ss, rfl, .other (by simp) h2⟩

/-! What is in force is determined by the entries. -/

theorem last_unique {α β : Type} (f : α → β) (hf : ∀ x y, f x = f y → x = y) :
    ∀ {a a' b b' : List β} {x x' : α}, a ++ f x :: b = a' ++ f x' :: b' → (∀ y, f y ∉ b) → (∀ y, f y ∉ b') → x = x' := by
  intro a a' b b' x x' e h h'
  rcases List.append_eq_append_iff.1 e with ⟨c, e1, e2⟩ | ⟨c, e1, e2⟩
  · cases c with
    | nil => exact hf _ _ (List.cons.inj (by simpa using e2)).1
    | cons y c =>
      rw [List.cons_append] at e2
      have := (List.cons.inj e2).2
      exact absurd (this ▸ List.mem_append_right c (List.mem_cons_self ..)) (h x')
  · cases c with
    | nil => exact (hf _ _ (List.cons.inj (by simpa using e2)).1).symm
    | cons y c =>
      rw [List.cons_append] at e2
      have := (List.cons.inj e2).2
      exact absurd (this ▸ List.mem_append_right c (List.mem_cons_self ..)) (h' x)

theorem displayIn_unique {pre : List Entry} {d d' : Option TestDisplay} (h : DisplayIn pre d) (h' : DisplayIn pre d') : d = d' := by
  rcases h with ⟨rfl, h⟩ | ⟨x, a, b, rfl, rfl, h⟩
  · rcases h' with ⟨rfl, -⟩ | ⟨x, a, b, rfl, rfl, -⟩
    · rfl
    · exact absurd (by simp) (h x)
  · rcases h' with ⟨rfl, h'⟩ | ⟨x', a', b', rfl, e, h'⟩
    · exact absurd (by simp) (h' x)
    · rw [last_unique Entry.display (by intro _ _ e; injection e) e h h']

theorem modeIn_unique {pre : List Entry} {d d' : TestMode} (h : ModeIn pre d) (h' : ModeIn pre d') : d = d' := by
  rcases h with ⟨rfl, h⟩ | ⟨a, b, rfl, h⟩
  · rcases h' with ⟨rfl, -⟩ | ⟨a, b, rfl, -⟩
    · rfl
    · exact absurd (by simp) (h d')
  · rcases h' with ⟨rfl, h'⟩ | ⟨a', b', e, h'⟩
    · exact absurd (by simp) (h' d)
    · exact last_unique Entry.flags (by intro _ _ e; injection e) e h h'

/-- The longest tail of entries with tables, after the entries without at the end. -/
theorem tablesIn_unique {pre : List Entry} {ts ts' : List TestTable} (h : TablesIn pre ts) (h' : TablesIn pre ts') : ts = ts' := by
  have key : ∀ (l l' : List TestTable) (a a' : List Entry), a ++ l.map .table = a' ++ l'.map .table →
      (∀ y, a.getLast? ≠ some (.table y)) → (∀ y, a'.getLast? ≠ some (.table y)) → l.length ≤ l'.length → l = l' := by
    intro l l' a a' e h1 h2 hl
    rcases List.append_eq_append_iff.1 e with ⟨c, e1, e2⟩ | ⟨c, e1, e2⟩
    · have : c = [] := by
        have := congrArg List.length e2
        simp at this
        exact List.length_eq_zero_iff.1 (by omega)
      subst this
      simp only [List.nil_append] at e2
      exact (List.map_inj_right (by intro _ _ e; injection e)).1 e2
    · rcases List.eq_nil_or_concat c with rfl | ⟨u, y, rfl⟩
      · simp only [List.nil_append] at e2
        exact (List.map_inj_right (by intro _ _ e; injection e)).1 e2.symm
      · rw [List.concat_eq_append] at *
        have hy : y ∈ l'.map Entry.table := by rw [e2]; simp
        obtain ⟨t, -, rfl⟩ := List.mem_map.1 hy
        exact absurd (by rw [e1]; simp) (h1 t)
  have strip : ∀ {a a' b b' : List Entry} {l l' : List TestTable}, l ≠ [] → l' ≠ [] →
      a ++ l.map .table ++ b = a' ++ l'.map .table ++ b' → (∀ y, .table y ∉ b) → (∀ y, .table y ∉ b') →
      a ++ l.map .table = a' ++ l'.map .table := by
    intro a a' b b' l l' hl hl' e h1 h2
    rcases List.append_eq_append_iff.1 e with ⟨c, e1, e2⟩ | ⟨c, e1, e2⟩
    · rcases List.eq_nil_or_concat l' with rfl | ⟨u, y, rfl⟩
      · exact absurd rfl hl'
      · rcases List.eq_nil_or_concat c with rfl | ⟨v, z, rfl⟩
        · simpa using e1.symm
        · exfalso
          simp only [List.concat_eq_append, List.map_append, List.map_cons, List.map_nil] at e1 e2
          rw [← List.append_assoc, ← List.append_assoc] at e1
          have hz := List.append_inj_right' e1 rfl
          simp only [List.cons.injEq, and_true] at hz
          subst hz
          exact h1 y (by rw [e2]; simp)
    · rcases List.eq_nil_or_concat l with rfl | ⟨u, y, rfl⟩
      · exact absurd rfl hl
      · rcases List.eq_nil_or_concat c with rfl | ⟨v, z, rfl⟩
        · simpa using e1
        · exfalso
          simp only [List.concat_eq_append, List.map_append, List.map_cons, List.map_nil] at e1 e2
          rw [← List.append_assoc, ← List.append_assoc] at e1
          have hz := List.append_inj_right' e1 rfl
          simp only [List.cons.injEq, and_true] at hz
          subst hz
          exact h2 y (by rw [e2]; simp)
  have some_mem : ∀ {l : List TestTable} {a b : List Entry}, l ≠ [] → ∃ y, Entry.table y ∈ a ++ l.map .table ++ b := by
    intro l a b hl
    cases l with
    | nil => exact absurd rfl hl
    | cons y l => exact ⟨y, by simp⟩
  rcases h with ⟨rfl, h⟩ | ⟨a, b, hne, rfl, h1, h2⟩
  · rcases h' with ⟨rfl, -⟩ | ⟨a', b', hne', rfl, -, -⟩
    · rfl
    · obtain ⟨y, hy⟩ := @some_mem _ a' b' hne'
      exact absurd hy (h y)
  · rcases h' with ⟨rfl, h'⟩ | ⟨a', b', hne', e, h1', h2'⟩
    · obtain ⟨y, hy⟩ := @some_mem _ a b hne
      exact absurd hy (h' y)
    · have e' := strip hne hne' e h1 h1'
      rcases Nat.le_total ts.length ts'.length with hl | hl
      · exact key _ _ _ _ e' h2 h2' hl
      · exact (key _ _ _ _ e'.symm h2' h2 hl).symm

theorem suitesFrom_unique {pre es : List Entry} {ss : List Suite} (h : SuitesFrom pre es ss) :
    ∀ {ss'}, SuitesFrom pre es ss' → ss = ss' := by
  induction h with
  | done => intro ss' h'; cases h'; rfl
  | tests h1 h2 h3 h4 ih =>
    intro ss' h'
    cases h' with
    | tests h1' h2' h3' h4' =>
      rw [displayIn_unique h1 h1', tablesIn_unique h2 h2', modeIn_unique h3 h3', ih h4']
    | other hne _ => exact absurd rfl (hne _)
  | other hne h4 ih =>
    intro ss' h'
    cases h' with
    | tests => exact absurd rfl (hne _)
    | other _ h4' => exact ih h4'

/-- **C64.** The test runner accepts a YAML file, given by the events of the YAML library, exactly if it is one document in
UTF-8 that consists of entries for display tables, tables, flags and tests of the documented form (whatever follows the
document is not read); the suites it runs are then exactly those of the file: one for each entry with tests, with the
display table, the tables and the mode that are in force there. -/
theorem C64_test_file (evs : List Ev) (ss : List Suite) : yamlSuites evs = some ss ↔
    ∃ src rest entries, evs = src ++ rest ∧ FileSrc src entries ∧ SuitesFrom [] entries ss := by
  rw [yamlSuites_iff]
  constructor
  · rintro ⟨src, rest, es, e1, e2, rfl⟩
    obtain ⟨ss, h1, h2⟩ := suites_from es [] _ InForce.start
    refine ⟨src, rest, es, e1, e2, ?_⟩
    rw [h1]; simpa using h2
  · rintro ⟨src, rest, es, e1, e2, h⟩
    obtain ⟨ss', h1, h2⟩ := suites_from es [] _ InForce.start
    refine ⟨src, rest, es, e1, e2, ?_⟩
    rw [h1, suitesFrom_unique h h2]
    rfl

/-- **C65.** The spans of a typeform: an accepted typeform has one mask for each class, and a character is emphasised with a
class by the spans of its mask exactly if the mask has a `+` there. -/
theorem C65_mask (cls mask : Text) (spans : List Span) (h : MaskSpans cls mask spans) (i : Nat) :
    (∃ sp ∈ spans, sp.cls = cls ∧ sp.start ≤ i ∧ i < sp.stop) ↔ mask[i]? = some '+' := by
  constructor
  · rintro ⟨sp, hm, -, h1, h2⟩
    exact ((h.runs sp).1 hm).2.inside i h1 h2
  · intro hi
    have back : ∀ n, n ≤ i → mask[i - n]? = some '+' → (∀ j, i - n ≤ j → j ≤ i → mask[j]? = some '+') →
        ∃ s, s ≤ i ∧ (∀ j, s ≤ j → j ≤ i → mask[j]? = some '+') ∧ ∀ j, j + 1 = s → mask[j]? ≠ some '+' := by
      intro n hn
      induction hm : i - n using Nat.strongRecOn generalizing n with
      | ind m ih =>
        intro h1 h2
        by_cases hz : m = 0
        · exact ⟨0, Nat.zero_le _, fun j _ hj => h2 j (by omega) hj, fun j hj => by omega⟩
        · by_cases hp : mask[m - 1]? = some '+'
          · refine ih (m - 1) (by omega) (n + 1) (by omega) (by omega) hp (fun j hj1 hj2 => ?_)
            by_cases hj : j = m - 1
            · rw [hj]; exact hp
            · exact h2 j (by omega) hj2
          · refine ⟨m, by omega, h2, fun j hj => ?_⟩
            have : j = m - 1 := by omega
            rw [this]; exact hp
    obtain ⟨s, s1, s2, s3⟩ := back 0 (Nat.zero_le _) hi (fun j h1 h2 => by
      have : j = i := by omega
      rw [this]; exact hi)
    have fwd : ∀ n k, k + n = mask.length + 1 → i < k → (∀ j, s ≤ j → j < k → mask[j]? = some '+') →
        ∃ e, i < e ∧ (∀ j, s ≤ j → j < e → mask[j]? = some '+') ∧ mask[e]? ≠ some '+' := by
      intro n
      induction n with
      | zero =>
        intro k hk hik hj
        have := hj (k - 1) (by omega) (by omega)
        rw [List.getElem?_eq_none_iff.2 (by omega)] at this
        cases this
      | succ n ih =>
        intro k hk hik hj
        by_cases hp : mask[k]? = some '+'
        · refine ih (k + 1) (by omega) (by omega) (fun j h1 h2 => ?_)
          by_cases h : j = k
          · rw [h]; exact hp
          · exact hj j h1 (by omega)
        · exact ⟨k, hik, hj, hp⟩
    have hlt : i < mask.length := by
      by_cases h : i < mask.length
      · exact h
      · rw [List.getElem?_eq_none_iff.2 (by omega)] at hi; cases hi
    obtain ⟨e, e1, e2, e3⟩ := fwd (mask.length - i) (i + 1) (by omega) (by omega) (fun j h1 h2 => s2 j h1 (by omega))
    exact ⟨⟨cls, s, e⟩, (h.runs _).2 ⟨rfl, ⟨Nat.lt_of_le_of_lt s1 e1, e2, s3, e3⟩⟩, rfl, s1, e1⟩

/-- A mask with two runs. -/
example : MaskSpans "italic".toList "++--+ +".toList
    [⟨"italic".toList, 0, 2⟩, ⟨"italic".toList, 4, 5⟩, ⟨"italic".toList, 6, 7⟩] :=
  (maskSpans_iff _ _ _).2 (by decide +kernel)

/-- A file with two tables in sequence, tests, another table and tests in both directions with options. -/
def exampleEvents : List Ev :=
  let s (t : String) : Ev := .scalar t.toList false
  [.streamStart true, .docStart, .mapStart, s "display", s "a.dis,b.dis", s "table", s "en.ctb", s "table",
    .mapStart, s "language", s "en", s "__assert-match", s "en-g2.ctb", .mapEnd,
    s "tests", .seqStart, .seqStart, s "a", s "b", .seqEnd, .seqEnd,
    s "flags", .mapStart, s "testmode", s "bothDirections", .mapEnd,
    s "table", .scalar "letter a 1".toList true,
    s "tests", .seqStart, .seqStart, s "description", s "x\\x0041", s "b", .mapStart, s "xfail",
      .mapStart, s "forward", s "off", s "backward", s "bug 7", .mapEnd,
      s "typeform", .mapStart, s "bold", s "+-+", .mapEnd, s "cursorPos", s "3", .mapEnd, .seqEnd, .seqEnd,
    .mapEnd, .docEnd, .streamEnd]

example : yamlSuites exampleEvents = some [
    ⟨some (.list ["a.dis".toList, "b.dis".toList]), [.simple "en.ctb".toList, .simple "en-g2.ctb".toList], .forward,
      [bareTest "a".toList "b".toList]⟩,
    ⟨some (.list ["a.dis".toList, "b.dis".toList]), [.inline "letter a 1".toList], .bothDirections,
      [{ bareTest "xA".toList "b".toList with
          xfail := .direction false true
          emphasis := [⟨"bold".toList, 0, 1⟩, ⟨"bold".toList, 2, 3⟩]
          cursorPos := some (.single 3) }]⟩] := by decide +kernel

end Louis
