import Verif.Lemmas.Priority

/-!
# C03: among all matches the preferred one is returned

`prefs` (in `Spec/Prefs.lean`) lists the ends of all matches in the order in which a backtracking matcher tries them.
-/

namespace Louis.Regexp

theorem mem_eatAll_iff {p : Char → Char → Bool} {P : Char → Char → Prop} (hp : ∀ e c, p e c = true ↔ P e c) :
    ∀ {es : List Char} {s t : St}, t ∈ eatAll p es s ↔ EatsAll P es s t
  | [], s, t => by simp [eatAll, EatsAll]
  | e :: es, s, t => by
    simp only [eatAll, List.mem_flatMap, EatsAll]
    constructor
    · rintro ⟨u, hu, h⟩
      obtain ⟨c, l, hr, hc, rfl⟩ := mem_eat hu
      exact ⟨_, ⟨c, l, hr, (hp e c).1 hc, rfl⟩, (mem_eatAll_iff hp).1 h⟩
    · rintro ⟨u, ⟨c, l, hr, hc, rfl⟩, h⟩
      exact ⟨s.adv c l, by simp [eat, hr, (hp e c).2 hc], (mem_eatAll_iff hp).2 h⟩

theorem mem_eat_iff {p : Char → Bool} {P : Char → Prop} (hp : ∀ c, p c = true ↔ P c) {s t : St} :
    t ∈ eat p s ↔ Eats P s t := by
  constructor
  · intro h
    obtain ⟨c, l, hr, hc, rfl⟩ := mem_eat h
    exact ⟨c, l, hr, (hp c).1 hc, rfl⟩
  · rintro ⟨c, l, hr, hc, rfl⟩
    simp [eat, hr, (hp c).2 hc]

theorem mem_times_iff {step : St → List St} {R : St → St → Prop} (h : ∀ s t, t ∈ step s ↔ R s t) :
    ∀ {n : Nat} {s t : St}, t ∈ timesPrefs step n s ↔ Iter R n s t
  | 0, s, t => by simp [timesPrefs, Iter]
  | n + 1, s, t => by
    simp only [timesPrefs, List.mem_flatMap, Iter]
    exact ⟨fun ⟨u, hu, h'⟩ => ⟨u, (h s u).1 hu, (mem_times_iff h).1 h'⟩,
      fun ⟨u, hu, h'⟩ => ⟨u, (h s u).2 hu, (mem_times_iff h).2 h'⟩⟩

theorem mem_star_iff {step : St → List St} {R : St → St → Prop} (h : ∀ s t, t ∈ step s ↔ R s t)
    (hlt : ∀ s t, t ∈ step s → t.rest.length < s.rest.length) :
    ∀ {k : Nat} {s t : St}, s.rest.length = k → (t ∈ starPrefs step s.rest.length s ↔ ∃ n, Iter R n s t) := by
  intro k
  induction k using Nat.strongRecOn with
  | ind k IH =>
    intro s t hk
    rw [starPrefs_eq]
    simp only [List.mem_append, List.mem_flatMap, List.mem_singleton]
    constructor
    · rintro (⟨u, hu, h'⟩ | rfl)
      · have hl := hlt s u hu
        simp only [hl, if_true] at h'
        obtain ⟨n, hn⟩ := (IH _ (by omega) rfl).1 h'
        exact ⟨n + 1, u, (h s u).1 hu, hn⟩
      · exact ⟨0, rfl⟩
    · rintro ⟨n, hn⟩
      cases n with
      | zero => exact Or.inr hn
      | succ n =>
        obtain ⟨u, hu, hn⟩ := hn
        have hu' := (h s u).2 hu
        have hl := hlt s u hu'
        refine Or.inl ⟨u, hu', ?_⟩
        simp only [hl, if_true]
        exact (IH _ (by omega) rfl).2 ⟨n, hn⟩

/-- The preference list contains exactly the matches of the pattern. -/
theorem C03_prefs_are_the_matches (lower : Char → List Char) (env : Nat → Option Nat) (atStart : Bool) :
    ∀ (r : Regexp), SimpleLoops r → ∀ (s t : St),
      t ∈ prefs lower env atStart r s ↔ Matches lower env atStart r s t := by
  have hlt : ∀ r, nullable r = false → ∀ s t, t ∈ prefs lower env atStart r s → t.rest.length < s.rest.length :=
    fun r hn s t h => (prefs_later (cx := ⟨lower, env, atStart, 0⟩) r s t h).2 hn
  intro r
  induction r with
  | literal c => intro _ s t; exact mem_eat_iff (by simp)
  | any => intro _ s t; exact mem_eat_iff (by simp)
  | cls c => intro _ s t; exact mem_eat_iff (by simp)
  | notCls c => intro _ s t; exact mem_eat_iff (by simp)
  | string c | notString c => intro _ s t; exact mem_eatAll_iff (by simp)
  | ciString c => intro _ s t; exact mem_eatAll_iff (by simp)
  | varEq i v => intro _ s t; simp only [prefs, Matches, MatchesWith]; split <;> simp_all
  | notVarEq i v =>
    intro _ s t; simp only [prefs, Matches, MatchesWith]
    cases env i with
    | none => simp
    | some a => by_cases h : a = v <;> simp [h]
  | empty => intro _ s t; simp [prefs, Matches, MatchesWith]
  | never => intro _ s t; simp [prefs, Matches, MatchesWith]
  | endAnchor => intro _ s t; simp only [prefs, Matches, MatchesWith]; split <;> simp_all
  | notEndAnchor => intro _ s t; simp only [prefs, Matches, MatchesWith]; split <;> simp_all
  | startAnchor => intro _ s t; simp only [prefs, Matches, MatchesWith]; split <;> simp_all
  | notStartAnchor => intro _ s t; simp only [prefs, Matches, MatchesWith]; split <;> simp_all
  | group r ih => exact ih
  | concat l r ihl ihr =>
    intro hs s t
    simp only [prefs, Matches, MatchesWith, List.mem_flatMap]
    exact exists_congr fun u => and_congr (ihl hs.1 s u) (ihr hs.2 u t)
  | either l r ihl ihr =>
    intro hs s t
    simp only [prefs, Matches, MatchesWith, List.mem_append]
    exact or_congr (ihl hs.1 s t) (ihr hs.2 s t)
  | optional r ih =>
    intro hs s t
    simp only [prefs, Matches, MatchesWith, List.mem_append, List.mem_singleton]
    rw [ih hs s t]; exact Or.comm
  | zeroOrMore r ih =>
    intro hs s t
    exact mem_star_iff (ih hs.2) (hlt r hs.1) rfl
  | oneOrMore r ih =>
    intro hs s t
    simp only [prefs, Matches, MatchesWith, List.mem_flatMap]
    constructor
    · rintro ⟨u, hu, h⟩
      obtain ⟨n, hn⟩ := (mem_star_iff (ih hs.2) (hlt r hs.1) rfl).1 h
      exact ⟨n + 1, by omega, u, (ih hs.2 s u).1 hu, hn⟩
    · rintro ⟨n, hn, h⟩
      cases n with
      | zero => omega
      | succ n =>
        obtain ⟨u, hu, h⟩ := h
        exact ⟨u, (ih hs.2 s u).2 hu, (mem_star_iff (ih hs.2) (hlt r hs.1) rfl).2 ⟨n, h⟩⟩
  | repeatExactly n r ih => intro hs s t; exact mem_times_iff (ih hs)
  | repeatAtLeast n r ih =>
    intro hs s t
    simp only [prefs, Matches, MatchesWith, List.mem_flatMap]
    constructor
    · rintro ⟨u, hu, h⟩
      obtain ⟨k, hk⟩ := (mem_star_iff (ih hs.2) (hlt r hs.1) rfl).1 h
      exact ⟨n + k, by omega, Iter.add ((mem_times_iff (ih hs.2)).1 hu) hk⟩
    · rintro ⟨k, hk, h⟩
      obtain ⟨j, rfl⟩ := Nat.exists_eq_add_of_le hk
      obtain ⟨u, h1, h2⟩ := Iter.split h
      exact ⟨u, (mem_times_iff (ih hs.2)).2 h1, (mem_star_iff (ih hs.2) (hlt r hs.1) rfl).2 ⟨j, h2⟩⟩
  | repeatAtLeastAtMost n m r ih => intro hs; exact hs.elim
  | capture r ih =>
    intro hs s t
    simp only [prefs, Matches, MatchesWith, List.mem_map]
    exact exists_congr fun u => and_congr (ih hs _ u) ⟨Eq.symm, Eq.symm⟩

theorem firstAt_head {is cl cx b} (hmt : is[b]? = some (.mtch 0)) : ∀ (l : List St), FirstAt is cl cx b l l.head?
  | [] => .nil
  | _ :: _ => .hit ⟨1, K_mtch hmt⟩

/-- C03: the result is the first element of the preference list.  Partial: patterns with a loop whose body can match
the empty text are excluded (`C03_nullable_loop_wrong` shows that the property fails for them), and so is `{min,max}`,
whose code is wrong already (C02). -/
theorem C03_leftmost_first_partial {τ : Type} (r : Regexp) (hr : SimpleLoops r) (payload : τ)
    (lower : Char → List Char) (input : List Char) (env : Nat → Option Nat) (atStart : Bool) :
    match (prefs lower env atStart r (St.init input)).head? with
    | none => findAnchored (compile r payload) lower input env atStart = .ok none
    | some best => ∃ f, findAnchored (compile r payload) lower input env atStart = .ok (some f) ∧
        f.length + best.rest.length = input.length ∧
        sliceBytes input best.cap.1 best.cap.2 = some f.capture ∧
        (takeBytes input best.cap.1).map List.length = some f.offset := by
  obtain ⟨res, hres, -, -⟩ := findAnchored_spec r payload lower input env atStart
  obtain ⟨b, hf, hlen, hmt⟩ := compile_frag r payload
  have wf := compile_wf r payload
  generalize hP : compile r payload = P at *
  have htr : P.translations = [payload] := by rw [← hP]; rfl
  have h0 : ∀ (pc k : Nat), P.instrs[pc]? = some (.mtch k) → k = 0 := by
    intro pc k h; have := wf.mtch pc k h; simp [htr] at this; exact this
  unfold findAnchored at hres ⊢
  generalize hcx : (⟨lower, env, atStart, utf8Len input⟩ : Ctx) = cx at *
  have hok0 : (St.init input).Ok cx := by rw [← hcx]; simp [St.Ok, St.init]
  obtain ⟨cur, e1, p1⟩ := addThread_post wf cx 0 (P.instrs.length + 1) (ThreadList.new P.instrs.length).startStep 0 (0, 0)
    (by omega) (Bitset.covers_clear (Bitset.covers_new _)) (unseen_lt _ _)
  have hst : Stopped P.instrs cur.threads := p1.stopped (by intro t ht; simp [ThreadList.startStep] at ht)
  obtain ⟨n, hk⟩ := frag_first (cx := cx) r 0 b (St.init input) _ hf hr hok0 (firstAt_head hmt _)
  have hF := (addThread_first wf cx 0 input n (P.instrs.length + 1) _ cur 0 (0, 0) (fun _ => False) _ (by omega)
    (Bitset.covers_clear (Bitset.covers_new _)) (unseen_lt _ _) e1 hk .nil
    (fun d hd => absurd hd (Bitset.get_clear _ d)) (fun _ h => h.elim)).1
  have hrun := runLoop_first wf h0 input.length input 0 0 cur (ThreadList.new P.instrs.length) none _ hst p1.covers
    (Bitset.covers_new _) (by simp) hF
  have hpr : prefs lower env atStart r (St.init input) = prefs cx.lower cx.env cx.atStart r (St.init input) := by
    rw [← hcx]
  rw [hpr]
  simp only [e1, hrun] at hres ⊢
  cases hh : (prefs cx.lower cx.env cx.atStart r (St.init input)).head? with
  | none => simp
  | some best =>
    have hmem : best ∈ prefs cx.lower cx.env cx.atStart r (St.init input) := List.mem_of_head? hh
    have hle := (prefs_later (cx := cx) r _ _ hmem).1.le
    rw [hh] at hres
    simp only [Option.map_some, Option.or_some, toMatched] at hres ⊢
    cases h1 : sliceBytes input best.cap.1 best.cap.2 with
    | none => simp [h1] at hres
    | some c =>
      cases h2 : takeBytes input best.cap.1 with
      | none => simp [h1, h2] at hres
      | some x =>
        refine ⟨_, by simp [h1, h2, htr]; rfl, ?_, by simp, by simp⟩
        simp only [St.init] at hle; simp only; omega

/-! Concrete instances: `(a|ab)(c|bcd)` on `abcd`, alternation prefers the left branch. -/

example : SimpleLoops (.concat (.capture (.zeroOrMore (.either (.literal 'a') (.literal 'b')))) (.optional .any)) := by
  simp [SimpleLoops, nullable]

example : (prefs (fun c => [c]) (fun _ => none) true
    (.concat (.either (.literal 'a') (.string ['a', 'b'])) (.optional .any)) (St.init ['a', 'b', 'c'])).map (·.rest) =
    [['c'], ['b', 'c'], [], ['c']] := by decide

/-- The pattern `(a*(|c))*`. -/
def nullableLoop : Regexp := .zeroOrMore (.concat (.zeroOrMore (.literal 'a')) (.either .empty (.literal 'c')))

/-- For a loop whose body can match the empty text the property fails: on `ac` a backtracking matcher prefers to
consume both characters in two iterations (`a` then `c`), the virtual machine stops after `a`. -/
theorem C03_nullable_loop_wrong :
    ((prefs (fun c => [c]) (fun _ => none) false nullableLoop (St.init ['a', 'c'])).head?.map (·.rest)) = some [] ∧
    ((findAnchored (compile nullableLoop ()) (fun c => [c]) ['a', 'c'] (fun _ => none) false).toOption.map
      (·.map (·.length))) = some (some 1) := by
  decide

end Louis.Regexp
