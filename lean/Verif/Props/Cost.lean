import Verif.Model.Cost
import Verif.Lemmas.Vm
import Verif.Spec.Size

/-! C78: a pattern is matched in time proportional to the length of the text times the size of the pattern. -/

namespace Louis.Regexp

theorem addThread_counted (is : List Instr) (cx : Ctx) (sp : Nat) :
    ∀ (fuel : Nat) (l : ThreadList) (pc : Nat) (cap : Nat × Nat),
      (addThreadC is cx sp fuel l pc cap).1 = addThread is cx sp fuel l pc cap := by
  intro fuel
  induction fuel with
  | zero => intros; rfl
  | succ fuel ih =>
    intro l pc cap
    rw [addThreadC, addThread]
    cases l.seen.get pc with
    | none => rfl
    | some v =>
      cases v with
      | true => rfl
      | false =>
        cases is[pc]? with
        | none => rfl
        | some i =>
          cases i <;> simp only [ih]
          case split a b =>
            rw [← ih]
            cases (addThreadC is cx sp fuel { l with seen := l.seen.insert pc } a cap).1 with
            | error e => rfl
            | ok l' => simp only [ih]
          all_goals (split <;> rfl)

/-- What one call achieves: every instruction newly entered is paid for by the potential `2 * unseen`. -/
structure Paid (n : Nat) (l l' : ThreadList) (k : Nat) : Prop where
  covers : l'.seen.Covers n
  cost : k + 2 * unseen l' n ≤ 1 + 2 * unseen l n
  threads : l'.threads.length + unseen l' n ≤ l.threads.length + unseen l n

theorem addThread_paid (is : List Instr) (cx : Ctx) (sp : Nat) :
    ∀ (fuel : Nat) (l : ThreadList) (pc : Nat) (cap : Nat × Nat), l.seen.Covers is.length →
      (∀ e, (addThreadC is cx sp fuel l pc cap).1 = .error e →
        (addThreadC is cx sp fuel l pc cap).2 ≤ 1 + 2 * unseen l is.length) ∧
      (∀ l', (addThreadC is cx sp fuel l pc cap).1 = .ok l' →
        Paid is.length l l' (addThreadC is cx sp fuel l pc cap).2) := by
  intro fuel
  induction fuel with
  | zero => intro l pc cap _; simp [addThreadC]
  | succ fuel ih =>
    intro l pc cap hc
    rw [addThreadC]
    split
    · simp
    · refine ⟨by simp, fun l' h => ?_⟩
      simp at h; subst h; exact ⟨hc, by simp, by simp⟩
    · rename_i hs
      cases hi : is[pc]? with
      | none => simp
      | some i =>
        have hpc : pc < is.length := by
          rcases Nat.lt_or_ge pc is.length with h | h
          · exact h
          · simp [List.getElem?_eq_none h] at hi
        have hu := unseen_insert hc hpc hs
        have hc' : Bitset.Covers (l.seen.insert pc) is.length := Bitset.covers_insert hc
        have plain : ∀ ts : List Thread, ts.length ≤ l.threads.length + 1 →
            Paid is.length l ⟨ts, l.seen.insert pc⟩ 1 := fun ts h =>
          ⟨hc', by have := hu ts; omega, by have := hu ts; simp only; omega⟩
        have one : ∀ q c, 
            (∀ e, (addThreadC is cx sp fuel { l with seen := l.seen.insert pc } q c).1 = .error e →
              (addThreadC is cx sp fuel { l with seen := l.seen.insert pc } q c).2 + 1 ≤ 1 + 2 * unseen l is.length) ∧
            (∀ l', (addThreadC is cx sp fuel { l with seen := l.seen.insert pc } q c).1 = .ok l' →
              Paid is.length l l' ((addThreadC is cx sp fuel { l with seen := l.seen.insert pc } q c).2 + 1)) := by
          intro q c
          obtain ⟨he, ho⟩ := ih { l with seen := l.seen.insert pc } q c hc'
          have := hu l.threads
          refine ⟨fun e h => by have := he e h; omega, fun l' h => ?_⟩
          have p := ho l' h
          exact ⟨p.covers, by have := p.cost; omega, by have := p.threads; simp only at this; omega⟩
        cases i <;> simp only
        case split a b =>
          obtain ⟨he, ho⟩ := ih { l with seen := l.seen.insert pc } a cap hc'
          have := hu l.threads
          cases hr : (addThreadC is cx sp fuel { l with seen := l.seen.insert pc } a cap).1 with
          | error e => 
            refine ⟨fun e' _ => ?_, by simp⟩
            have := he e hr; simp only; omega
          | ok l1 =>
            have p := ho l1 hr
            obtain ⟨he', ho'⟩ := ih l1 b cap p.covers
            have := p.cost
            have := p.threads
            simp only at this
            refine ⟨fun e' h => ?_, fun l' h => ?_⟩
            · have := he' e' h; simp only; omega
            · have p' := ho' l' h
              exact ⟨p'.covers, by have := p'.cost; simp only; omega, by have := p'.threads; omega⟩
        all_goals
          first
          | exact one _ _
          | (split
             · exact one _ _
             · refine ⟨by simp, fun l' h => ?_⟩
               simp at h; subst h; exact plain _ (by simp))
          | (refine ⟨by simp, fun l' h => ?_⟩
             simp at h; subst h; exact plain _ (by simp))

theorem stepThreads_counted (is : List Instr) (classes : List (List Char)) (cx : Ctx) (sp length : Nat)
    (next : Option Char) : ∀ (ts : List Thread) (nl : ThreadList) (m : Option Matched),
    (stepThreadsC is classes cx sp length next ts nl m).1 = stepThreads is classes cx sp length next ts nl m := by
  intro ts
  induction ts with
  | nil => intros; rfl
  | cons t ts ih =>
    intro nl m
    rw [stepThreadsC, stepThreads]
    have key : ∀ i, (match consumes classes cx.lower i next with
        | .error e => ((.error e, 1) : Except Fault (ThreadList × Option Matched) × Nat)
        | .ok none => let r := stepThreadsC is classes cx sp length next ts nl m
                      (r.1, r.2 + 1)
        | .ok (some c) =>
          let a := addThreadC is cx (sp + c.utf8Size) (is.length + 1) nl (t.pc + 1) t.cap
          match a.1 with
          | .error e => (.error e, a.2 + 1)
          | .ok nl => let r := stepThreadsC is classes cx sp length next ts nl m
                      (r.1, a.2 + r.2 + 1)).1 =
        (match consumes classes cx.lower i next with
        | .error e => .error e
        | .ok none => stepThreads is classes cx sp length next ts nl m
        | .ok (some c) =>
          match addThread is cx (sp + c.utf8Size) (is.length + 1) nl (t.pc + 1) t.cap with
          | .error e => .error e
          | .ok nl => stepThreads is classes cx sp length next ts nl m) := by
      intro i
      cases consumes classes cx.lower i next with
      | error e => rfl
      | ok o =>
        cases o with
        | none => exact ih ..
        | some c =>
          simp only [← addThread_counted]
          cases (addThreadC is cx (sp + c.utf8Size) (is.length + 1) nl (t.pc + 1) t.cap).1 with
          | error e => rfl
          | ok l => exact ih ..
    cases is[t.pc]? with
    | none => rfl
    | some i => cases i <;> first | rfl | exact key _

theorem stepThreads_paid (is : List Instr) (classes : List (List Char)) (cx : Ctx) (sp length : Nat)
    (next : Option Char) : ∀ (ts : List Thread) (nl : ThreadList) (m : Option Matched),
    nl.seen.Covers is.length →
    (stepThreadsC is classes cx sp length next ts nl m).2 ≤ 2 * ts.length + 2 * unseen nl is.length ∧
    (∀ r, (stepThreadsC is classes cx sp length next ts nl m).1 = .ok r → r.1.seen.Covers is.length ∧
      r.1.threads.length + unseen r.1 is.length ≤ nl.threads.length + unseen nl is.length) := by
  intro ts
  induction ts with
  | nil => intro nl m hc; simp [stepThreadsC]; exact hc
  | cons t ts ih =>
    intro nl m hc
    rw [stepThreadsC]
    simp only [List.length_cons]
    split
    · exact ⟨by simp only; omega, by simp⟩
    · refine ⟨by simp only; omega, fun r h => ?_⟩
      simp at h; subst h; exact ⟨hc, by simp⟩
    · split
      · exact ⟨by simp only; omega, by simp⟩
      · obtain ⟨h1, h2⟩ := ih nl m hc
        exact ⟨by simp only; omega, h2⟩
      · rename_i c _
        obtain ⟨he, ho⟩ := addThread_paid is cx (sp + c.utf8Size) (is.length + 1) nl (t.pc + 1) t.cap hc
        cases hr : (addThreadC is cx (sp + c.utf8Size) (is.length + 1) nl (t.pc + 1) t.cap).1 with
        | error e => exact ⟨by have := he e hr; simp only; omega, by simp⟩
        | ok l' =>
          have p := ho l' hr
          obtain ⟨h1, h2⟩ := ih l' m p.covers
          have := p.cost
          have := p.threads
          simp only
          refine ⟨by omega, fun r h => ⟨(h2 r h).1, ?_⟩⟩
          have := (h2 r h).2
          omega

theorem runLoop_counted (is : List Instr) (classes : List (List Char)) (cx : Ctx) :
    ∀ (rest : List Char) (sp length : Nat) (current other : ThreadList) (m : Option Matched),
    (runLoopC is classes cx rest sp length current other m).1 =
      runLoop is classes cx rest sp length current other m := by
  intro rest
  induction rest with
  | nil =>
    intro sp length current other m
    rw [runLoopC, runLoop]
    split
    · rfl
    · simp only [← stepThreads_counted]
      cases (stepThreadsC is classes cx sp length ([] : List Char).head? current.threads other.startStep m).1 with
      | error e => rfl
      | ok r => rfl
  | cons c rest ih =>
    intro sp length current other m
    rw [runLoopC, runLoop]
    split
    · rfl
    · simp only [← stepThreads_counted]
      cases (stepThreadsC is classes cx sp length (c :: rest).head? current.threads other.startStep m).1 with
      | error e => rfl
      | ok r => exact ih ..

theorem unseen_le_length (l : ThreadList) (n : Nat) : unseen l n ≤ n := by
  unfold unseen
  exact Nat.le_trans List.countP_le_length (by simp)

theorem runLoop_paid (is : List Instr) (classes : List (List Char)) (cx : Ctx) :
    ∀ (rest : List Char) (sp length : Nat) (current other : ThreadList) (m : Option Matched),
    current.seen.Covers is.length → other.seen.Covers is.length → current.threads.length ≤ is.length →
    (runLoopC is classes cx rest sp length current other m).2 ≤ (4 * is.length + 1) * (rest.length + 1) := by
  intro rest
  induction rest with
  | nil =>
    intro sp length current other m hc ho ht
    rw [runLoopC]
    split
    · simp
    · obtain ⟨h1, _⟩ := stepThreads_paid is classes cx sp length none current.threads other.startStep m
        (Bitset.covers_clear ho)
      have := unseen_le_length other.startStep is.length
      simp only [List.head?_nil, List.length_nil]
      split <;> simp only <;> omega
  | cons c rest ih =>
    intro sp length current other m hc ho ht
    rw [runLoopC]
    split
    · simp only [List.length_cons]; exact Nat.le_trans (by omega) (Nat.le_mul_of_pos_right _ (by omega))
    · obtain ⟨h1, h2⟩ := stepThreads_paid is classes cx sp length (some c) current.threads other.startStep m
        (Bitset.covers_clear ho)
      have := unseen_le_length other.startStep is.length
      have hm : (4 * is.length + 1) * (rest.length + 1 + 1) =
        (4 * is.length + 1) * (rest.length + 1) + (4 * is.length + 1) := by rw [Nat.mul_add _ _ 1]; simp
      simp only [List.head?_cons, List.length_cons, hm]
      cases hr : (stepThreadsC is classes cx sp length (some c) current.threads other.startStep m).1 with
      | error e => simp only; omega
      | ok r =>
        obtain ⟨hc', ht'⟩ := h2 r hr
        have h0 : other.startStep.threads.length = 0 := rfl
        have := ih (sp + c.utf8Size) (length + 1) r.1 current r.2 hc' hc (by omega)
        simp only; omega

/-- `matchCost` goes through the loop of `findAnchored`. -/
theorem findAnchored_counted {τ : Type} (p : Compiled τ) (lower : Char → List Char) (input : List Char)
    (env : Nat → Option Nat) (atStart : Bool) :
    findAnchored p lower input env atStart =
      match (matchCost p lower input env atStart).1 with
      | .error e => .error e
      | .ok none => .ok none
      | .ok (some ((start, stop), length, idx)) =>
        match sliceBytes input start stop, takeBytes input start, p.translations[idx]? with
        | some capture, some before, some t => .ok (some ⟨capture, length, before.length, t⟩)
        | _, _, _ => .error .panic := by
  unfold findAnchored matchCost
  simp only [← addThread_counted, ← runLoop_counted]
  cases (addThreadC p.instrs ⟨lower, env, atStart, utf8Len input⟩ 0 (p.instrs.length + 1)
    (ThreadList.new p.instrs.length).startStep 0 (0, 0)).1 with
  | error e => rfl
  | ok l => rfl

/-- Whatever the program, whatever the text: matching is linear in both. -/
theorem matchCost_bound {τ : Type} (p : Compiled τ) (lower : Char → List Char) (input : List Char)
    (env : Nat → Option Nat) (atStart : Bool) :
    (matchCost p lower input env atStart).2 ≤ (4 * p.instrs.length + 1) * (input.length + 2) := by
  have hn : ((ThreadList.new p.instrs.length).startStep).seen.Covers p.instrs.length :=
    Bitset.covers_clear (Bitset.covers_new _)
  obtain ⟨he, ho⟩ := addThread_paid p.instrs ⟨lower, env, atStart, utf8Len input⟩ 0 (p.instrs.length + 1)
    (ThreadList.new p.instrs.length).startStep 0 (0, 0) hn
  have hu := unseen_le_length (ThreadList.new p.instrs.length).startStep p.instrs.length
  have hm : (4 * p.instrs.length + 1) * (input.length + 2) =
    (4 * p.instrs.length + 1) * (input.length + 1) + (4 * p.instrs.length + 1) := by
    rw [show input.length + 2 = (input.length + 1) + 1 from rfl, Nat.mul_add _ _ 1]; simp
  unfold matchCost
  simp only
  cases hr : (addThreadC p.instrs ⟨lower, env, atStart, utf8Len input⟩ 0 (p.instrs.length + 1)
    (ThreadList.new p.instrs.length).startStep 0 (0, 0)).1 with
  | error e => have := he e hr; simp only; omega
  | ok current =>
    have q := ho current hr
    have := q.threads
    have h0 : (ThreadList.new p.instrs.length).startStep.threads.length = 0 := rfl
    have := runLoop_paid p.instrs p.classes ⟨lower, env, atStart, utf8Len input⟩ input 0 0 current
      (ThreadList.new p.instrs.length) none q.covers (Bitset.covers_new _) (by omega)
    have := q.cost
    simp only; omega

theorem repeatN_length {f : Out → Out} {k : Nat} (h : ∀ o, (f o).instrs.length = o.instrs.length + k) :
    ∀ (n : Nat) (o : Out), (repeatN f n o).instrs.length = o.instrs.length + n * k := by
  intro n
  induction n with
  | zero => intro o; simp [repeatN]
  | succ n ih => intro o; rw [repeatN, ih, h, Nat.succ_mul]; omega

/-- The program of a pattern is as long as the pattern. -/
theorem emit_length : ∀ (r : Regexp) (o : Out), (emit r o).instrs.length = o.instrs.length + size r := by
  intro r
  induction r with
  | repeatExactly n r ih => intro o; exact repeatN_length ih n o
  | repeatAtLeast n r ih =>
    intro o
    simp only [emit, Out.push, Out.patch, List.length_set, List.length_append, ih, repeatN_length ih, size,
      List.length_singleton, Nat.succ_mul]
    omega
  | repeatAtLeastAtMost n m r ih =>
    intro o
    simp only [emit, Out.push, Out.patch, List.length_set, List.length_append, repeatN_length ih, size,
      List.length_singleton, Nat.add_mul]
    omega
  | _ =>
    intro o
    simp only [emit, Out.push, Out.patch, List.length_set, List.length_append, size, List.length_singleton,
      List.length_map, *]
    try omega

theorem compile_length {τ : Type} (r : Regexp) (payload : τ) : (compile r payload).instrs.length = size r + 1 := by
  simp [compile, emit_length]

/-- **C78.** Matching a pattern against a text takes a number of steps that is bounded by a constant times the size of
the pattern times the length of the text: for every pattern, text and environment.  (`matchCost` is the loop of
`find_anchored`, counted: `findAnchored_counted`.) -/
theorem C78_linear_time {τ : Type} (r : Regexp) (payload : τ) (lower : Char → List Char) (input : List Char)
    (env : Nat → Option Nat) (atStart : Bool) :
    (matchCost (compile r payload) lower input env atStart).2 ≤ (4 * size r + 5) * (input.length + 2) := by
  have := matchCost_bound (compile r payload) lower input env atStart
  rw [compile_length] at this
  exact this

-- (a*)*b against a text of a's: 89 steps for 8 letters and 10 more for every further letter; a matcher that
-- tries one alternative after the other needs exponentially many
example : size (.concat (.zeroOrMore (.zeroOrMore (.literal 'a'))) (.literal 'b')) = 6 := rfl
example : ((matchCost (compile (.concat (.zeroOrMore (.zeroOrMore (.literal 'a'))) (.literal 'b')) ()) (fun c => [c])
    (List.replicate 8 'a') (fun _ => none) false)).2 = 89 := by decide +kernel

end Louis.Regexp
