import Verif.Lemmas.Vm
import Verif.Spec.Regexp

/-! The main loop of the virtual machine against paths of the program. -/

namespace Louis.Regexp

/-- One step of one thread of the program. -/
inductive Step (is : List Instr) (classes : List (List Char)) (cx : Ctx) : Nat × St → Nat × St → Prop
  | eps {pc : Nat} {s : St} {i : Instr} {e : Nat × (Nat × Nat)} (hi : is[pc]? = some i)
      (he : e ∈ epsSucc cx s.sp i pc s.cap) : Step is classes cx (pc, s) (e.1, { s with cap := e.2 })
  | eat {pc : Nat} {s : St} {i : Instr} {c : Char} {t : List Char} (hi : is[pc]? = some i) (hr : s.rest = c :: t)
      (hc : consumes classes cx.lower i (some c) = .ok (some c)) :
      Step is classes cx (pc, s) (pc + 1, s.adv c t)

/-- `n` steps. -/
inductive Path (is : List Instr) (classes : List (List Char)) (cx : Ctx) : Nat → Nat × St → Nat × St → Prop
  | refl (q) : Path is classes cx 0 q q
  | step {n q e q'} (h : Step is classes cx q e) (p : Path is classes cx n e q') :
      Path is classes cx (n + 1) q q'

theorem Path.trans {is classes cx n m q q' q''} (h : Path is classes cx n q q') (h' : Path is classes cx m q' q'') :
    Path is classes cx (n + m) q q'' := by
  induction h with
  | refl => simpa using h'
  | step h _ ih => rw [Nat.add_right_comm]; exact Path.step h (ih h')

/-- A configuration that has reached a `Match` instruction. -/
def Accepting (is : List Instr) (q : Nat × St) (idx : Nat) : Prop := is[q.1]? = some (.mtch idx)

theorem EpsReach.path {is classes cx} {sp : Nat} {q q' : Nat × (Nat × Nat)} (h : EpsReach is cx sp q q')
    (rest : List Char) : ∃ n, Path is classes cx n (q.1, ⟨sp, rest, q.2⟩) (q'.1, ⟨sp, rest, q'.2⟩) := by
  induction h with
  | refl => exact ⟨0, .refl _⟩
  | @step q e q' i hi he _ ih =>
    obtain ⟨n, p⟩ := ih
    exact ⟨n + 1, .step (Step.eps (s := ⟨sp, rest, q.2⟩) hi he) p⟩

theorem consumes_some {classes lower i next c} (h : consumes classes lower i next = .ok (some c)) :
    next = some c ∧ i.stops = true ∧ ∀ k, i ≠ .mtch k := by
  cases i <;> simp only [consumes] at h
  all_goals (first | (cases h; done) | skip)
  all_goals (refine ⟨?_, by simp [Instr.stops], by simp⟩)
  all_goals (cases next <;> simp_all [Option.filter])
  all_goals (split at h <;> simp_all)

theorem consumes_total {is classes nt lower} (wf : WF is classes nt) {pc : Nat} {i : Instr} (hi : is[pc]? = some i)
    (hs : i.stops = true) (hm : ∀ k, i ≠ .mtch k) (next : Option Char) :
    ∃ r, consumes classes lower i next = .ok r := by
  cases i <;> simp_all [Instr.stops, consumes]
  all_goals (cases next <;> simp_all)
  · have := wf.cls pc _ (Or.inl hi); simp [this]
  · have := wf.cls pc _ (Or.inr hi); simp [this]

/-- All threads sit on stopping instructions. -/
def Stopped (is : List Instr) (ts : List Thread) : Prop :=
  ∀ t ∈ ts, ∃ i, is[t.pc]? = some i ∧ i.stops = true

/-- The seen set is closed: successors of seen instructions are seen and stopping ones are threads. -/
structure Closed (is : List Instr) (cx : Ctx) (sp : Nat) (l : ThreadList) : Prop where
  succ : ∀ d, l.Seen d → ∀ i, is[d]? = some i → ∀ cap, ∀ e ∈ epsSucc cx sp i d cap, l.Seen e.1
  stop : ∀ d, l.Seen d → ∀ i, is[d]? = some i → i.stops = true → ∃ t ∈ l.threads, t.pc = d
  bound : ∀ d, l.Seen d → d < is.length

theorem Post.closed' {is cx sp qs l l'} (p : Post is cx sp qs l l') (h : Closed is cx sp l) :
    Closed is cx sp l' := by
  refine ⟨?_, ?_, ?_⟩
  · intro d hd i hi cap e he
    by_cases h1 : l.Seen d
    · exact p.mono _ (h.succ d h1 i hi cap e he)
    · exact p.closed d hd h1 i hi cap e he
  · intro d hd i hi hs
    obtain ⟨new, ht, _, hn⟩ := p.new
    by_cases h1 : l.Seen d
    · obtain ⟨t, ht', e⟩ := h.stop d h1 i hi hs
      exact ⟨t, by simp [ht, ht'], e⟩
    · obtain ⟨t, ht', e⟩ := hn d hd h1 i hi hs
      exact ⟨t, by simp [ht, ht'], e⟩
  · intro d hd
    by_cases h1 : l.Seen d
    · exact h.bound d h1
    · exact p.bound d hd h1

theorem Post.stopped {is cx sp qs l l'} (p : Post is cx sp qs l l') (h : Stopped is l.threads) :
    Stopped is l'.threads := by
  obtain ⟨new, ht, hr, _⟩ := p.new
  intro t h'
  rw [ht] at h'
  rcases List.mem_append.1 h' with h' | h'
  · exact h t h'
  · obtain ⟨i, hi, hs, _⟩ := hr t h'; exact ⟨i, hi, hs⟩

theorem closed_clear (is cx sp) (l : ThreadList) : Closed is cx sp l.startStep := by
  have : ∀ d, ¬ l.startStep.Seen d := fun d h => Bitset.get_clear l.seen d h
  exact ⟨fun d h => absurd h (this d), fun d h => absurd h (this d), fun d h => absurd h (this d)⟩

/-- A thread accepts: some path from it reaches `Match`. -/
def Accepts (is : List Instr) (classes : List (List Char)) (cx : Ctx) (pc sp : Nat) (rest : List Char) : Prop :=
  ∃ cap n q idx, Path is classes cx n (pc, ⟨sp, rest, cap⟩) q ∧ Accepting is q idx

/-- Steps do not depend on the capture. -/
theorem Path.recap {is classes cx n q q'} (h : Path is classes cx n q q') (cap : Nat × Nat) :
    ∃ cap', Path is classes cx n (q.1, { q.2 with cap := cap }) (q'.1, { q'.2 with cap := cap' }) := by
  induction h generalizing cap with
  | refl q => exact ⟨cap, .refl _⟩
  | step h _ ih =>
    cases h with
    | @eps pc s i e hi he =>
      obtain ⟨c, hc⟩ := epsSucc_pc cap he
      obtain ⟨cap', hp⟩ := ih c
      refine ⟨cap', .step (Step.eps (s := { s with cap := cap }) (e := (e.1, c)) hi hc) ?_⟩
      exact hp
    | @eat pc s i c t hi hr hc =>
      obtain ⟨cap', hp⟩ := ih cap
      refine ⟨cap', .step (Step.eat (s := { s with cap := cap }) hi hr hc) ?_⟩
      exact hp

/-- From a seen instruction of a closed list, an accepting path passes through one of the threads. -/
theorem closed_accepts {is classes cx} {sp : Nat} {l : ThreadList} (hcl : Closed is cx sp l) {rest : List Char} :
    ∀ (n : Nat) (pc : Nat) (cap : Nat × Nat) (q : Nat × St) (idx : Nat), l.Seen pc →
      Path is classes cx n (pc, ⟨sp, rest, cap⟩) q → Accepting is q idx →
      ∃ t ∈ l.threads, Accepts is classes cx t.pc sp rest := by
  intro n
  induction n with
  | zero =>
    intro pc cap q idx hs hp ha
    cases hp
    obtain ⟨t, ht, e⟩ := hcl.stop pc hs _ ha rfl
    exact ⟨t, ht, cap, 0, _, idx, by rw [e]; exact .refl _, ha⟩
  | succ n ih =>
    intro pc cap q idx hs hp ha
    cases hp with
    | step h p =>
      cases h with
      | eps hi he => exact ih _ _ q idx (hcl.succ pc hs _ hi cap _ he) p ha
      | eat hi hr hc =>
        obtain ⟨t, ht, e⟩ := hcl.stop pc hs _ hi (consumes_some hc).2.1
        refine ⟨t, ht, cap, n + 1, q, idx, ?_, ha⟩
        rw [e]; exact .step (.eat hi hr hc) p

/-- The result of one pass over the threads. -/
theorem stepThreads_spec {is classes cx nt} (wf : WF is classes nt) (sp length : Nat) (rest : List Char) :
    ∀ (ts : List Thread) (nl : ThreadList) (m : Option Matched), Stopped is ts → nl.seen.Covers is.length →
      ∃ nl' m', stepThreads is classes cx sp length rest.head? ts nl m = .ok (nl', m') ∧
        nl'.seen.Covers is.length ∧
        (∀ sp', (∀ c ∈ rest.head?, sp' = sp + c.utf8Size) → Closed is cx sp' nl → Closed is cx sp' nl') ∧
        (Stopped is nl.threads → Stopped is nl'.threads) ∧
        (rest = [] → nl' = nl) ∧
        -- soundness
        (∃ new, nl'.threads = nl.threads ++ new ∧
          ∀ t' ∈ new, ∃ t ∈ ts, ∃ n, ∃ c tl, rest = c :: tl ∧
            Path is classes cx n (t.pc, ⟨sp, rest, t.cap⟩) (t'.pc, ⟨sp + c.utf8Size, tl, t'.cap⟩)) ∧
        (m' = m ∨ ∃ t ∈ ts, ∃ idx, is[t.pc]? = some (.mtch idx) ∧ m' = some (t.cap, length, idx)) ∧
        -- completeness
        (m.isSome → m'.isSome) ∧
        (∀ t ∈ ts, (∃ idx, is[t.pc]? = some (.mtch idx)) → m'.isSome) ∧
        (∀ t ∈ ts, ∀ i c, is[t.pc]? = some i → consumes classes cx.lower i rest.head? = .ok (some c) →
          m'.isSome ∨ nl'.Seen (t.pc + 1)) ∧
        (∀ d, nl.Seen d → nl'.Seen d) := by
  intro ts
  induction ts with
  | nil =>
    intro nl m _ hc
    exact ⟨nl, m, rfl, hc, fun _ _ h => h, fun h => h, fun _ => rfl, ⟨[], by simp, by simp⟩, Or.inl rfl, fun h => h,
      by simp, by simp, fun _ h => h⟩
  | cons t ts ih =>
    intro nl m hst hc
    obtain ⟨i, hi, his⟩ := hst t (by simp)
    have hst' : Stopped is ts := fun t' h => hst t' (by simp [h])
    by_cases hm : ∃ idx, i = .mtch idx
    · obtain ⟨idx, rfl⟩ := hm
      refine ⟨nl, some (t.cap, length, idx), by simp [stepThreads, hi], hc, fun _ _ h => h, fun h => h, fun _ => rfl,
        ⟨[], by simp, by simp⟩, Or.inr ⟨t, by simp, idx, hi, rfl⟩, by simp, by simp, ?_, fun _ h => h⟩
      intro _ _ _ _ _ _; exact Or.inl rfl
    · have hm' : ∀ k, i ≠ .mtch k := fun k h => hm ⟨k, h⟩
      obtain ⟨r, hr⟩ := consumes_total (lower := cx.lower) wf hi his hm' rest.head?
      have hunf : stepThreads is classes cx sp length rest.head? (t :: ts) nl m =
          match consumes classes cx.lower i rest.head? with
          | .error e => .error e
          | .ok none => stepThreads is classes cx sp length rest.head? ts nl m
          | .ok (some c) =>
            match addThread is cx (sp + c.utf8Size) (is.length + 1) nl (t.pc + 1) t.cap with
            | .error e => .error e
            | .ok nl => stepThreads is classes cx sp length rest.head? ts nl m := by
        rw [stepThreads]; simp only [hi]
        cases i <;> first | rfl | (exact absurd rfl (hm' _))
      cases r with
      | none =>
        obtain ⟨nl', m', e, h1, h2, h3, h4, ⟨new, h5, h6⟩, h7, h8, h9, h10, h11⟩ := ih nl m hst' hc
        refine ⟨nl', m', by rw [hunf, hr]; exact e, h1, h2, h3, h4, ⟨new, h5, ?_⟩, ?_, h8, ?_, ?_, h11⟩
        · intro t' ht'
          obtain ⟨t0, h0, rest'⟩ := h6 t' ht'
          exact ⟨t0, by simp [h0], rest'⟩
        · rcases h7 with h7 | ⟨t0, h0, r⟩
          · exact Or.inl h7
          · exact Or.inr ⟨t0, by simp [h0], r⟩
        · intro t0 h0 ⟨idx, h0'⟩
          rcases List.mem_cons.1 h0 with rfl | h0
          · rw [hi] at h0'; cases h0'; exact absurd rfl (hm' _)
          · exact h9 t0 h0 ⟨idx, h0'⟩
        · intro t0 h0 i0 c0 hi0 hc0
          rcases List.mem_cons.1 h0 with rfl | h0
          · rw [hi] at hi0; cases hi0; rw [hr] at hc0; cases hc0
          · exact h10 t0 h0 i0 c0 hi0 hc0
      | some c =>
        obtain ⟨hhead, _, _⟩ := consumes_some hr
        obtain ⟨tl, hrest⟩ : ∃ tl, rest = c :: tl := by
          cases rest with
          | nil => simp at hhead
          | cons a tl => simp at hhead; exact ⟨tl, by simp [hhead]⟩
        obtain ⟨l1, e1, p1⟩ := addThread_post wf cx (sp + c.utf8Size) (is.length + 1) nl (t.pc + 1) t.cap
          (wf.next _ _ hi his hm') hc (unseen_lt _ _)
        obtain ⟨nl', m', e, h1, h2, h3, h4, ⟨new, h5, h6⟩, h7, h8, h9, h10, h11⟩ := ih l1 m hst' p1.covers
        refine ⟨nl', m', by rw [hunf, hr]; simp only [e1]; exact e, h1, ?_, ?_, ?_, ?_, ?_, h8, ?_, ?_,
          fun d h => h11 d (p1.mono d h)⟩
        · intro sp' hsp hcl
          have : sp' = sp + c.utf8Size := hsp c (by simp [hhead])
          subst this
          exact h2 _ hsp (p1.closed' hcl)
        · intro h; exact h3 (p1.stopped h)
        · intro h; rw [hrest] at h; cases h
        · obtain ⟨n1, t1, r1, _⟩ := p1.new
          refine ⟨n1 ++ new, by simp [h5, t1], ?_⟩
          intro t' ht'
          rcases List.mem_append.1 ht' with ht' | ht'
          · obtain ⟨_, _, _, q, hq, hreach⟩ := r1 t' ht'
            simp at hq; subst hq
            obtain ⟨n, p⟩ := EpsReach.path (classes := classes) hreach tl
            refine ⟨t, by simp, n + 1, c, tl, hrest, ?_⟩
            exact .step (Step.eat (s := ⟨sp, rest, t.cap⟩) hi hrest (by rw [hhead] at hr; exact hr)) p
          · obtain ⟨t0, h0, rest'⟩ := h6 t' ht'
            exact ⟨t0, by simp [h0], rest'⟩
        · rcases h7 with h7 | ⟨t0, h0, r⟩
          · exact Or.inl h7
          · exact Or.inr ⟨t0, by simp [h0], r⟩
        · intro t0 h0 ⟨idx, h0'⟩
          rcases List.mem_cons.1 h0 with rfl | h0
          · rw [hi] at h0'; cases h0'; exact absurd rfl (hm' _)
          · exact h9 t0 h0 ⟨idx, h0'⟩
        · intro t0 h0 i0 c0 hi0 hc0
          rcases List.mem_cons.1 h0 with rfl | h0
          · exact Or.inr (h11 _ (p1.seen (t0.pc + 1, t0.cap) (by simp)))
          · exact h10 t0 h0 i0 c0 hi0 hc0

/-- The main loop: total, sound and complete with respect to program paths. -/
theorem runLoop_spec {is classes cx nt} (wf : WF is classes nt) :
    ∀ (rest : List Char) (sp length : Nat) (cur oth : ThreadList) (m : Option Matched),
      Stopped is cur.threads → cur.seen.Covers is.length → oth.seen.Covers is.length →
      ∃ m', runLoop is classes cx rest sp length cur oth m = .ok m' ∧
        (m.isSome → m'.isSome) ∧
        ((∃ t ∈ cur.threads, Accepts is classes cx t.pc sp rest) → m'.isSome) ∧
        (m' = m ∨ ∃ t ∈ cur.threads, ∃ n q idx tl, Path is classes cx n (t.pc, ⟨sp, rest, t.cap⟩) q ∧
          Accepting is q idx ∧ rest = tl ++ q.2.rest ∧ m' = some (q.2.cap, length + tl.length, idx)) := by
  intro rest
  induction rest with
  | nil =>
    intro sp length cur oth m hst hc ho
    unfold runLoop
    by_cases hemp : cur.threads.isEmpty = true
    · have : cur.threads = [] := by simpa using hemp
      exact ⟨m, by simp [hemp], fun h => h, by simp [this], Or.inl rfl⟩
    · simp only [hemp, Bool.false_eq_true, if_false]
      obtain ⟨nl', m', e, h1, h2, h3, h4, _, h7, h8, h9, h10, h11⟩ :=
        stepThreads_spec (cx := cx) wf sp length [] cur.threads oth.startStep m hst (Bitset.covers_clear ho)
      refine ⟨m', by rw [e], h8, ?_, ?_⟩
      · rintro ⟨t, ht, cap, n, q, idx, hp, ha⟩
        obtain ⟨i, hi, his⟩ := hst t ht
        cases hp with
        | refl => exact h9 t ht ⟨idx, ha⟩
        | step h p =>
          cases h with
          | eps hi' he => rw [hi] at hi'; cases hi'; rw [epsSucc_stops his] at he; simp at he
          | eat _ hr _ => cases hr
      · rcases h7 with h7 | ⟨t, ht, idx, hi, hm⟩
        · exact Or.inl h7
        · exact Or.inr ⟨t, ht, 0, _, idx, [], .refl _, hi, by simp, by simp [hm]⟩
  | cons c rest ih =>
    intro sp length cur oth m hst hc ho
    unfold runLoop
    by_cases hemp : cur.threads.isEmpty = true
    · have : cur.threads = [] := by simpa using hemp
      exact ⟨m, by simp [hemp], fun h => h, by simp [this], Or.inl rfl⟩
    · simp only [hemp, Bool.false_eq_true, if_false]
      obtain ⟨nl, m1, e, h1, h2, h3, h4, ⟨new, h5, h6⟩, h7, h8, h9, h10, h11⟩ :=
        stepThreads_spec (cx := cx) wf sp length (c :: rest) cur.threads oth.startStep m hst (Bitset.covers_clear ho)
      rw [e]
      have hst1 : Stopped is nl.threads := h3 (by intro t ht; simp [ThreadList.startStep] at ht)
      have hcl : Closed is cx (sp + c.utf8Size) nl := h2 _ (by simp) (closed_clear _ _ _ _)
      obtain ⟨m', e', g1, g2, g3⟩ := ih (sp + c.utf8Size) (length + 1) nl cur m1 hst1 h1 hc
      refine ⟨m', e', fun h => g1 (h8 h), ?_, ?_⟩
      · rintro ⟨t, ht, cap, n, q, idx, hp, ha⟩
        obtain ⟨i, hi, his⟩ := hst t ht
        cases hp with
        | refl => exact g1 (h9 t ht ⟨idx, ha⟩)
        | step h p =>
          cases h with
          | eps hi' he => rw [hi] at hi'; cases hi'; rw [epsSucc_stops his] at he; simp at he
          | eat hi' hr hcs =>
            simp at hr; obtain ⟨rfl, rfl⟩ := hr
            rcases h10 t ht _ _ hi' (by simpa using hcs) with h | h
            · exact g1 h
            · exact g2 (closed_accepts hcl _ _ _ _ _ h p ha)
      · have hnl : nl.threads = new := by simpa [ThreadList.startStep] using h5
        rcases g3 with rfl | ⟨t', ht', n, q, idx, tl, hp, ha, hr, hm⟩
        · rcases h7 with h7 | ⟨t, ht, idx, hi, hm⟩
          · exact Or.inl h7
          · exact Or.inr ⟨t, ht, 0, _, idx, [], .refl _, hi, by simp, by simp [hm]⟩
        · rw [hnl] at ht'
          obtain ⟨t, ht, n0, c0, tl0, hr0, hp0⟩ := h6 t' ht'
          simp at hr0; obtain ⟨rfl, rfl⟩ := hr0
          refine Or.inr ⟨t, ht, _, q, idx, c :: tl, hp0.trans hp, ha, by simp [hr], ?_⟩
          rw [hm]; simp; omega

end Louis.Regexp
