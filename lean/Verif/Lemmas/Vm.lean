import Verif.Lemmas.Bitset

/-! The epsilon closure computed by `addThread`. -/

namespace Louis.Regexp

/-- Character consuming or `Match`: where the epsilon closure stops. -/
def Instr.stops : Instr → Bool
  | .char _ | .notChar _ | .ciChar _ | .cls _ | .notCls _ | .any | .mtch _ => true
  | _ => false

/-- Epsilon successors of an instruction with the capture they carry, in priority order. -/
def epsSucc (cx : Ctx) (sp : Nat) (i : Instr) (pc : Nat) (cap : Nat × Nat) : List (Nat × (Nat × Nat)) :=
  match i with
  | .jump t => [(t, cap)]
  | .split a b => [(a, cap), (b, cap)]
  | .captureStart => [(pc + 1, (sp, 0))]
  | .captureEnd => [(pc + 1, (cap.1, sp))]
  | .varEq i v => if cx.env i = some v then [(pc + 1, cap)] else []
  | .notVarEq i v => if (cx.env i).any (· != v) then [(pc + 1, cap)] else []
  | .assertEnd => if sp = cx.inputLen then [(pc + 1, cap)] else []
  | .assertMoreInput => if sp ≠ cx.inputLen then [(pc + 1, cap)] else []
  | .assertStart => if cx.atStart = true ∧ sp = 0 then [(pc + 1, cap)] else []
  | .assertNotStart => if ¬ (cx.atStart = true ∧ sp = 0) then [(pc + 1, cap)] else []
  | _ => []

theorem epsSucc_stops {cx : Ctx} {sp : Nat} {i : Instr} {pc : Nat} {cap} (h : i.stops = true) :
    epsSucc cx sp i pc cap = [] := by
  cases i <;> simp_all [Instr.stops, epsSucc]

theorem epsSucc_pc {cx : Ctx} {sp : Nat} {i : Instr} {pc : Nat} {cap : Nat × Nat} (cap' : Nat × Nat)
    {e : Nat × (Nat × Nat)} (h : e ∈ epsSucc cx sp i pc cap) :
    ∃ c, (e.1, c) ∈ epsSucc cx sp i pc cap' := by
  cases i <;> simp only [epsSucc] at h ⊢ <;> (try split at h) <;> simp_all
  rcases h with h | h <;> subst h
  · exact ⟨cap'.1, cap'.2, Or.inl ⟨rfl, rfl⟩⟩
  · exact ⟨cap'.1, cap'.2, Or.inr ⟨rfl, rfl⟩⟩

/-- Add a list of threads one after the other. -/
def addAll (is : List Instr) (cx : Ctx) (sp fuel : Nat) :
    List (Nat × (Nat × Nat)) → ThreadList → Except Fault ThreadList
  | [], l => .ok l
  | q :: qs, l =>
    match addThread is cx sp fuel l q.1 q.2 with
    | .error e => .error e
    | .ok l => addAll is cx sp fuel qs l

theorem addThread_unseen {is : List Instr} {cx : Ctx} {sp fuel pc : Nat} {l : ThreadList} {cap : Nat × Nat}
    {i : Instr} (hs : l.seen.get pc = some false) (hi : is[pc]? = some i) :
    addThread is cx sp (fuel + 1) l pc cap =
      if i.stops then .ok ⟨l.threads ++ [⟨pc, cap⟩], l.seen.insert pc⟩
      else addAll is cx sp fuel (epsSucc cx sp i pc cap) ⟨l.threads, l.seen.insert pc⟩ := by
  rw [addThread]
  simp only [hs, hi]
  have id' : ∀ (x : Except Fault ThreadList),
      (match x with | .error e => Except.error e | .ok l => .ok l) = x := by intro x; cases x <;> rfl
  cases i <;> simp only [Instr.stops, epsSucc, addAll, if_true, Bool.false_eq_true, if_false, id']
  all_goals (split <;> simp_all [addAll])

theorem addThread_seen {is : List Instr} {cx : Ctx} {sp fuel pc : Nat} {l : ThreadList} {cap : Nat × Nat}
    (hs : l.seen.get pc = some true) : addThread is cx sp (fuel + 1) l pc cap = .ok l := by
  rw [addThread]; simp [hs]

/-- Every jump stays inside the program, classes and payloads exist. -/
structure WF (is : List Instr) (classes : List (List Char)) (nt : Nat) : Prop where
  succ : ∀ (pc : Nat) (i : Instr), is[pc]? = some i → ∀ cx sp cap, ∀ e ∈ epsSucc cx sp i pc cap, e.1 < is.length
  next : ∀ (pc : Nat) (i : Instr), is[pc]? = some i → i.stops = true → (∀ k, i ≠ .mtch k) → pc + 1 < is.length
  cls : ∀ (pc k : Nat), is[pc]? = some (.cls k) ∨ is[pc]? = some (.notCls k) → k < classes.length
  mtch : ∀ (pc k : Nat), is[pc]? = some (.mtch k) → k < nt
  pos : 0 < is.length

/-- Reachability by epsilon steps. -/
inductive EpsReach (is : List Instr) (cx : Ctx) (sp : Nat) : Nat × (Nat × Nat) → Nat × (Nat × Nat) → Prop
  | refl (q) : EpsReach is cx sp q q
  | step {q e q' : Nat × (Nat × Nat)} {i : Instr} (hi : is[q.1]? = some i)
      (he : e ∈ epsSucc cx sp i q.1 q.2) (h : EpsReach is cx sp e q') : EpsReach is cx sp q q'

def ThreadList.Seen (l : ThreadList) (pc : Nat) : Prop := l.seen.get pc = some true

def unseen (l : ThreadList) (n : Nat) : Nat := (List.range n).countP fun i => l.seen.get i != some true

theorem unseen_le {l l' : ThreadList} {n : Nat} (h : ∀ i, l.Seen i → l'.Seen i) : unseen l' n ≤ unseen l n := by
  unfold unseen
  apply List.countP_mono_left
  intro i _ hi
  simp only [bne_iff_ne, ne_eq] at hi ⊢
  exact fun hc => hi (h i hc)

theorem countP_lt_of {α : Type} {p q : α → Bool} : ∀ {l : List α} {a : α}, (∀ x, q x = true → p x = true) →
    a ∈ l → p a = true → q a = false → l.countP q < l.countP p
  | [], _, _, h, _, _ => by simp at h
  | x :: xs, a, hpq, h, hp, hq => by
    have hle : xs.countP q ≤ xs.countP p := List.countP_mono_left fun y _ => hpq y
    simp only [List.countP_cons]
    rcases List.mem_cons.1 h with rfl | h
    · simp [hp, hq]; omega
    · have := countP_lt_of hpq h hp hq
      have hx := hpq x
      by_cases hqx : q x = true
      · simp [hqx, hx hqx]; omega
      · simp [hqx]; split <;> omega

theorem unseen_insert {l : ThreadList} {n pc : Nat} (hc : l.seen.Covers n) (hpc : pc < n)
    (hs : l.seen.get pc = some false) (ts : List Thread) :
    unseen ⟨ts, l.seen.insert pc⟩ n < unseen l n := by
  unfold unseen
  apply countP_lt_of (a := pc)
  · intro x hx
    simp only [bne_iff_ne, ne_eq, Bitset.get_insert hc hpc] at hx ⊢
    intro h; apply hx; split <;> simp_all
  · simp [hpc]
  · simp [hs]
  · simp [Bitset.get_insert hc hpc]

/-- What adding the threads `qs` to `l` achieves. -/
structure Post (is : List Instr) (cx : Ctx) (sp : Nat) (qs : List (Nat × (Nat × Nat)))
    (l l' : ThreadList) : Prop where
  covers : l'.seen.Covers is.length
  mono : ∀ i, l.Seen i → l'.Seen i
  seen : ∀ q ∈ qs, l'.Seen q.1
  new : ∃ new, l'.threads = l.threads ++ new ∧
    (∀ t ∈ new, ∃ i, is[t.pc]? = some i ∧ i.stops = true ∧ ∃ q ∈ qs, EpsReach is cx sp q (t.pc, t.cap)) ∧
    (∀ d, l'.Seen d → ¬ l.Seen d → ∀ i, is[d]? = some i → i.stops = true → ∃ t ∈ new, t.pc = d)
  closed : ∀ d, l'.Seen d → ¬ l.Seen d → ∀ i, is[d]? = some i → ∀ cap, ∀ e ∈ epsSucc cx sp i d cap, l'.Seen e.1
  bound : ∀ d, l'.Seen d → ¬ l.Seen d → d < is.length

theorem addAll_post {is : List Instr} {classes : List (List Char)} {nt : Nat} (_wf : WF is classes nt) (cx : Ctx) (sp fuel : Nat)
    (ih : ∀ (l : ThreadList) (pc : Nat) (cap : Nat × Nat), pc < is.length → l.seen.Covers is.length →
      unseen l is.length < fuel →
      ∃ l', addThread is cx sp fuel l pc cap = .ok l' ∧ Post is cx sp [(pc, cap)] l l') :
    ∀ (qs : List (Nat × (Nat × Nat))) (l : ThreadList), (∀ q ∈ qs, q.1 < is.length) →
      l.seen.Covers is.length → unseen l is.length < fuel →
      ∃ l', addAll is cx sp fuel qs l = .ok l' ∧ Post is cx sp qs l l' := by
  intro qs
  induction qs with
  | nil =>
    intro l _ hc _
    exact ⟨l, rfl, hc, fun _ h => h, by simp, ⟨[], by simp, by simp, fun d h h' => absurd h h'⟩,
      fun d h h' => absurd h h', fun d h h' => absurd h h'⟩
  | cons q qs IH =>
    intro l hq hc hu
    obtain ⟨l1, e1, p1⟩ := ih l q.1 q.2 (hq q (by simp)) hc hu
    have hu1 : unseen l1 is.length < fuel := Nat.lt_of_le_of_lt (unseen_le p1.mono) hu
    obtain ⟨l2, e2, p2⟩ := IH l1 (fun q' h => hq q' (by simp [h])) p1.covers hu1
    refine ⟨l2, by simp [addAll, e1, e2], p2.covers, fun i h => p2.mono i (p1.mono i h), ?_, ?_, ?_, ?_⟩
    · intro q' h
      rcases List.mem_cons.1 h with rfl | h
      · exact p2.mono _ (p1.seen _ (by simp))
      · exact p2.seen _ h
    · obtain ⟨n1, t1, r1, c1⟩ := p1.new
      obtain ⟨n2, t2, r2, c2⟩ := p2.new
      refine ⟨n1 ++ n2, by simp [t1, t2], ?_, ?_⟩
      · intro t ht
        rcases List.mem_append.1 ht with ht | ht
        · obtain ⟨i, hi, hs, q', hq', hr⟩ := r1 t ht
          simp at hq'; subst hq'
          exact ⟨i, hi, hs, q, by simp, hr⟩
        · obtain ⟨i, hi, hs, q', hq', hr⟩ := r2 t ht
          exact ⟨i, hi, hs, q', by simp [hq'], hr⟩
      · intro d hd hnd i hi hs
        by_cases h1 : l1.Seen d
        · obtain ⟨t, ht, e⟩ := c1 d h1 hnd i hi hs
          exact ⟨t, by simp [ht], e⟩
        · obtain ⟨t, ht, e⟩ := c2 d hd h1 i hi hs
          exact ⟨t, by simp [ht], e⟩
    · intro d hd hnd i hi cap e he
      by_cases h1 : l1.Seen d
      · exact p2.mono _ (p1.closed d h1 hnd i hi cap e he)
      · exact p2.closed d hd h1 i hi cap e he
    · intro d hd hnd
      by_cases h1 : l1.Seen d
      · exact p1.bound d h1 hnd
      · exact p2.bound d hd h1

theorem addThread_post {is : List Instr} {classes : List (List Char)} {nt : Nat} (wf : WF is classes nt) (cx : Ctx) (sp : Nat) :
    ∀ (fuel : Nat) (l : ThreadList) (pc : Nat) (cap : Nat × Nat), pc < is.length → l.seen.Covers is.length →
      unseen l is.length < fuel →
      ∃ l', addThread is cx sp fuel l pc cap = .ok l' ∧ Post is cx sp [(pc, cap)] l l' := by
  intro fuel
  induction fuel with
  | zero => intro l pc cap _ _ h; omega
  | succ fuel ih =>
    intro l pc cap hpc hc hu
    obtain ⟨v, hv⟩ := Bitset.get_of_covers hc hpc
    cases v with
    | true =>
      refine ⟨l, addThread_seen hv, hc, fun _ h => h, ?_, ⟨[], by simp, by simp, fun d h h' => absurd h h'⟩,
        fun d h h' => absurd h h', fun d h h' => absurd h h'⟩
      intro q hq; simp at hq; subst hq; exact hv
    | false =>
      obtain ⟨i, hi⟩ : ∃ i, is[pc]? = some i := ⟨is[pc], by simp [hpc]⟩
      rw [addThread_unseen hv hi]
      have hget := fun j => Bitset.get_insert hc hpc j
      by_cases hstop : i.stops = true
      · simp only [hstop, if_true]
        have hseen : ∀ ts d, ThreadList.Seen ⟨ts, l.seen.insert pc⟩ d ↔ d = pc ∨ l.Seen d := by
          intro ts d; simp only [ThreadList.Seen, hget]; by_cases h : d = pc <;> simp [h]
        have honly : ∀ ts d, ThreadList.Seen ⟨ts, l.seen.insert pc⟩ d → ¬ l.Seen d → d = pc := by
          intro ts d h h'; exact ((hseen ts d).1 h).resolve_right h'
        refine ⟨_, rfl, Bitset.covers_insert hc, fun j h => (hseen _ j).2 (Or.inr h), ?_,
          ⟨[⟨pc, cap⟩], rfl, ?_, ?_⟩, ?_, ?_⟩
        · intro q hq; simp at hq; subst hq; exact (hseen _ _).2 (Or.inl rfl)
        · intro t ht; simp at ht; subst ht
          exact ⟨i, hi, hstop, (pc, cap), by simp, EpsReach.refl _⟩
        · intro d hd hnd _ _ _
          exact ⟨⟨pc, cap⟩, by simp, (honly _ d hd hnd).symm⟩
        · intro d hd hnd i' hi' cap' e he
          obtain rfl := honly _ d hd hnd
          rw [hi] at hi'; cases hi'
          rw [epsSucc_stops hstop] at he; simp at he
        · intro d hd hnd
          obtain rfl := honly _ d hd hnd; exact hpc
      · simp only [hstop, Bool.false_eq_true, if_false]
        have hseen : ∀ ts d, ThreadList.Seen ⟨ts, l.seen.insert pc⟩ d ↔ d = pc ∨ l.Seen d := by
          intro ts d; simp only [ThreadList.Seen, hget]; by_cases h : d = pc <;> simp [h]
        have hul : unseen ⟨l.threads, l.seen.insert pc⟩ is.length < fuel := by
          have := unseen_insert hc hpc hv l.threads; omega
        obtain ⟨l', e, p⟩ := addAll_post wf cx sp fuel ih (epsSucc cx sp i pc cap) ⟨l.threads, l.seen.insert pc⟩
          (fun q hq => wf.succ pc i hi cx sp cap q hq) (Bitset.covers_insert hc) hul
        have hpcs : l'.Seen pc := p.mono _ ((hseen _ _).2 (Or.inl rfl))
        refine ⟨l', e, p.covers, fun j h => p.mono j ((hseen _ j).2 (Or.inr h)), ?_, ?_, ?_, ?_⟩
        · intro q hq; simp at hq; subst hq; exact hpcs
        · obtain ⟨new, ht, hr, hcl⟩ := p.new
          refine ⟨new, ht, ?_, ?_⟩
          · intro t ht
            obtain ⟨i', hi', hs', q, hq, hr⟩ := hr t ht
            exact ⟨i', hi', hs', (pc, cap), by simp, EpsReach.step hi hq hr⟩
          · intro d hd hnd i' hi' hs'
            by_cases hdp : d = pc
            · subst hdp; rw [hi] at hi'; cases hi'; exact absurd hs' hstop
            · exact hcl d hd (fun h => ((hseen _ d).1 h).elim hdp hnd) i' hi' hs'
        · intro d hd hnd i' hi' cap' e' he'
          by_cases hdp : d = pc
          · subst hdp; rw [hi] at hi'; cases hi'
            obtain ⟨c, hc'⟩ := epsSucc_pc cap he'
            exact p.seen (e'.1, c) hc'
          · exact p.closed d hd (fun h => ((hseen _ d).1 h).elim hdp hnd) i' hi' cap' e' he'
        · intro d hd hnd
          by_cases hdp : d = pc
          · omega
          · exact p.bound d hd (fun h => ((hseen _ d).1 h).elim hdp hnd)

theorem unseen_lt (l : ThreadList) (n : Nat) : unseen l n < n + 1 := by
  unfold unseen
  have := List.countP_le_length (p := fun i => l.seen.get i != some true) (l := List.range n)
  simp at this; omega

end Louis.Regexp
