import Verif.Lemmas.Find
import Verif.Spec.Prefs

/-! Leftmost-first preference of the virtual machine. -/

namespace Louis.Regexp

/-- First success of a list of alternatives; `none` is "not determined". -/
def firstL {α : Type} (f : α → Option (Option St)) : List α → Option (Option St)
  | [] => some none
  | q :: qs =>
    match f q with
    | none => none
    | some (some x) => some (some x)
    | some none => firstL f qs

/-- Backtracking execution of the program, cut off at depth `n` (`none`: not determined). -/
def K (is : List Instr) (cl : List (List Char)) (cx : Ctx) : Nat → Nat × St → Option (Option St)
  | 0, _ => none
  | n + 1, (pc, s) =>
    match is[pc]? with
    | none => none
    | some (.mtch _) => some (some s)
    | some i =>
      if i.stops then
        match s.rest with
        | [] => some none
        | c :: t =>
          match consumes cl cx.lower i (some c) with
          | .ok (some _) => K is cl cx n (pc + 1, s.adv c t)
          | .ok none => some none
          | .error _ => none
      else firstL (fun e => K is cl cx n (e.1, { s with cap := e.2 })) (epsSucc cx s.sp i pc s.cap)

theorem firstL_mono {α : Type} {f g : α → Option (Option St)} : ∀ {l : List α} {r},
    (∀ q r, f q = some r → g q = some r) → firstL f l = some r → firstL g l = some r
  | [], r, _, h => h
  | q :: qs, r, hfg, h => by
    simp only [firstL] at h ⊢
    cases hf : f q with
    | none => simp [hf] at h
    | some o =>
      rw [hfg q o hf]
      cases o with
      | some x => simpa [hf] using h
      | none => simp only [hf] at h; exact firstL_mono hfg h

theorem K_mtch {is cl cx n pc s k} (hi : is[pc]? = some (.mtch k)) : K is cl cx (n + 1) (pc, s) = some (some s) := by
  simp [K, hi]

theorem K_eps {is cl cx n} {pc : Nat} {s : St} {i : Instr} (hi : is[pc]? = some i) (hs : i.stops = false) :
    K is cl cx (n + 1) (pc, s) =
      firstL (fun e => K is cl cx n (e.1, { s with cap := e.2 })) (epsSucc cx s.sp i pc s.cap) := by
  rw [K]; simp only [hi]
  cases i <;> simp_all [Instr.stops]

theorem K_stop {is cl cx n} {pc : Nat} {s : St} {i : Instr} (hi : is[pc]? = some i) (hs : i.stops = true)
    (hm : ∀ k, i ≠ .mtch k) :
    K is cl cx (n + 1) (pc, s) = match s.rest with
        | [] => some none
        | c :: t =>
          match consumes cl cx.lower i (some c) with
          | .ok (some _) => K is cl cx n (pc + 1, s.adv c t)
          | .ok none => some none
          | .error _ => none := by
  rw [K]; simp only [hi]
  cases i <;> simp_all [Instr.stops]

theorem K_succ {is cl cx} : ∀ {n : Nat} {q : Nat × St} {r}, K is cl cx n q = some r → K is cl cx (n + 1) q = some r := by
  intro n
  induction n with
  | zero => intro q r h; simp [K] at h
  | succ n ih =>
    rintro ⟨pc, s⟩ r h
    cases hi : is[pc]? with
    | none => simp [K, hi] at h
    | some i =>
      by_cases hm : ∃ k, i = .mtch k
      · obtain ⟨k, rfl⟩ := hm; rw [K_mtch hi] at h ⊢; exact h
      · have hm' : ∀ k, i ≠ .mtch k := fun k e => hm ⟨k, e⟩
        cases hs : i.stops with
        | true =>
          rw [K_stop hi hs hm'] at h ⊢
          cases hr : s.rest with
          | nil => simpa [hr] using h
          | cons c t =>
            simp only [hr] at h ⊢
            cases hc : consumes cl cx.lower i (some c) with
            | error e => simp [hc] at h
            | ok o =>
              cases o with
              | none => simpa [hc] using h
              | some x => simp only [hc] at h ⊢; exact ih h
        | false =>
          rw [K_eps hi hs] at h ⊢
          exact firstL_mono (fun q r hq => ih hq) h

theorem K_mono {is cl cx n m} {q : Nat × St} {r} (h : K is cl cx n q = some r) (hle : n ≤ m) : K is cl cx m q = some r := by
  induction hle with
  | refl => exact h
  | step _ ih => exact K_succ ih

/-- The value of a configuration. -/
def V (is : List Instr) (cl : List (List Char)) (cx : Ctx) (q : Nat × St) (r : Option St) : Prop :=
  ∃ n, K is cl cx n q = some r

theorem V.det {is cl cx q r r'} (h : V is cl cx q r) (h' : V is cl cx q r') : r = r' := by
  obtain ⟨n, h⟩ := h; obtain ⟨m, h'⟩ := h'
  have a := K_mono h (Nat.le_max_left n m)
  have b := K_mono h' (Nat.le_max_right n m)
  rw [a] at b; exact Option.some.inj b

/-- Two lists related element by element. -/
inductive All2 {α β : Type} (R : α → β → Prop) : List α → List β → Prop
  | nil : All2 R [] []
  | cons {a b l l'} (h : R a b) (t : All2 R l l') : All2 R (a :: l) (b :: l')

theorem All2.imp {α β : Type} {R S : α → β → Prop} (h : ∀ a b, R a b → S a b) : ∀ {l : List α} {l' : List β},
    All2 R l l' → All2 S l l'
  | _, _, .nil => .nil
  | _, _, .cons a t => .cons (h _ _ a) (All2.imp h t)

/-- Failure and definedness do not depend on the capture. -/
theorem firstL_recap {α β : Type} {f : α → Option (Option St)} {g : β → Option (Option St)} :
    ∀ {l : List α} {l' : List β}, All2 (fun a b => (f a).map Option.isSome = (g b).map Option.isSome) l l' →
      (firstL f l).map Option.isSome = (firstL g l').map Option.isSome := by
  intro l l' h
  induction h with
  | nil => rfl
  | @cons a b l l' hab _ ih =>
    simp only [firstL]
    cases hf : f a with
    | none =>
      rw [hf] at hab
      cases hg : g b with
      | none => rfl
      | some y => rw [hg] at hab; simp at hab
    | some x =>
      rw [hf] at hab
      cases hg : g b with
      | none => rw [hg] at hab; simp at hab
      | some y =>
        rw [hg] at hab
        cases x <;> cases y <;> simp_all

theorem epsSucc_recap (cx : Ctx) (sp : Nat) (i : Instr) (pc : Nat) (cap cap' : Nat × Nat) :
    All2 (fun a b : Nat × (Nat × Nat) => a.1 = b.1) (epsSucc cx sp i pc cap) (epsSucc cx sp i pc cap') := by
  cases i <;> simp only [epsSucc] <;> (try split) <;> repeat constructor

theorem K_recap {is cl cx} : ∀ (n pc : Nat) (s : St) (cap : Nat × Nat),
    (K is cl cx n (pc, s)).map Option.isSome = (K is cl cx n (pc, { s with cap := cap })).map Option.isSome := by
  intro n
  induction n with
  | zero => intro pc s cap; rfl
  | succ n ih =>
    intro pc s cap
    cases hi : is[pc]? with
    | none => simp [K, hi]
    | some i =>
      by_cases hm : ∃ k, i = .mtch k
      · obtain ⟨k, rfl⟩ := hm; rw [K_mtch hi, K_mtch hi]; rfl
      · have hm' : ∀ k, i ≠ .mtch k := fun k e => hm ⟨k, e⟩
        cases hs : i.stops with
        | true =>
          rw [K_stop hi hs hm', K_stop hi hs hm']
          cases hr : s.rest with
          | nil => rfl
          | cons c t =>
            simp only
            cases hc : consumes cl cx.lower i (some c) with
            | error e => rfl
            | ok o => cases o with
              | none => rfl
              | some x => exact ih (pc + 1) (s.adv c t) cap
        | false =>
          rw [K_eps hi hs, K_eps hi hs]
          apply firstL_recap
          refine All2.imp ?_ (epsSucc_recap cx s.sp i pc s.cap cap)
          intro a b hab
          have := ih a.1 { s with cap := a.2 } b.2
          simp only at this ⊢
          rw [this, hab]

theorem K_def_recap {is cl cx n pc} {s : St} {r} (h : K is cl cx n (pc, s) = some r) (cap : Nat × Nat) :
    ∃ r', K is cl cx n (pc, { s with cap := cap }) = some r' ∧ r'.isSome = r.isSome := by
  have := K_recap (is := is) (cl := cl) (cx := cx) n pc s cap
  rw [h] at this
  cases hk : K is cl cx n (pc, { s with cap := cap }) with
  | none => rw [hk] at this; simp at this
  | some r' => rw [hk] at this; simp at this; exact ⟨r', rfl, this.symm⟩

/-- The first success among threads. -/
inductive FirstOf (is : List Instr) (cl : List (List Char)) (cx : Ctx) (sp : Nat) (rest : List Char) :
    List Thread → Option St → Prop
  | nil : FirstOf is cl cx sp rest [] none
  | hit {t ts x} (h : V is cl cx (t.pc, ⟨sp, rest, t.cap⟩) (some x)) : FirstOf is cl cx sp rest (t :: ts) (some x)
  | miss {t ts r} (h : V is cl cx (t.pc, ⟨sp, rest, t.cap⟩) none) (hr : FirstOf is cl cx sp rest ts r) :
      FirstOf is cl cx sp rest (t :: ts) r

theorem FirstOf.append_some {is cl cx sp rest ts x} (h : FirstOf is cl cx sp rest ts (some x)) (us : List Thread) :
    FirstOf is cl cx sp rest (ts ++ us) (some x) := by
  generalize hr : some x = r at h
  induction h with
  | nil => cases hr
  | hit h => exact .hit h
  | miss h _ ih => exact .miss h (ih hr)

theorem FirstOf.append_none {is cl cx sp rest ts us r} (h : FirstOf is cl cx sp rest ts none)
    (h' : FirstOf is cl cx sp rest us r) : FirstOf is cl cx sp rest (ts ++ us) r := by
  generalize hr : (none : Option St) = r0 at h
  induction h with
  | nil => exact h'
  | hit h => cases hr
  | miss h _ ih => exact .miss h (ih hr)

/-- `d` fails. -/
def Vnone (is : List Instr) (cl : List (List Char)) (cx : Ctx) (sp : Nat) (rest : List Char) (d : Nat) : Prop :=
  V is cl cx (d, ⟨sp, rest, (0, 0)⟩) none

theorem Vnone.of {is cl cx sp rest d cap} (h : V is cl cx (d, ⟨sp, rest, cap⟩) none) : Vnone is cl cx sp rest d := by
  obtain ⟨n, h⟩ := h
  obtain ⟨r', h1, h2⟩ := K_def_recap h (0, 0)
  cases r' with
  | none => exact ⟨n, h1⟩
  | some x => simp at h2

theorem Vnone.at {is cl cx sp rest d} (h : Vnone is cl cx sp rest d) (cap : Nat × Nat) : V is cl cx (d, ⟨sp, rest, cap⟩) none := by
  obtain ⟨n, h⟩ := h
  obtain ⟨r', h1, h2⟩ := K_def_recap h cap
  cases r' with
  | none => exact ⟨n, h1⟩
  | some x => simp at h2

theorem addAll_extends {is classes nt} (wf : WF is classes nt) (cx : Ctx) (sp fuel : Nat) {qs l l'}
    (hq : ∀ q ∈ qs, q.1 < is.length) (hc : l.seen.Covers is.length) (hu : unseen l is.length < fuel)
    (h : addAll is cx sp fuel qs l = .ok l') : Post is cx sp qs l l' := by
  obtain ⟨l2, e, p⟩ := addAll_post wf cx sp fuel (fun l pc cap => addThread_post wf cx sp fuel l pc cap) qs l hq hc hu
  rw [h] at e; cases e; exact p

/-- Adding a thread whose value is determined. -/
theorem addThread_first {is classes nt} (wf : WF is classes nt) (cx : Ctx) (sp : Nat) (rest : List Char) :
    ∀ (n fuel : Nat) (l l' : ThreadList) (pc : Nat) (cap : Nat × Nat) (stack : Nat → Prop) (r : Option St),
      pc < is.length → l.seen.Covers is.length → unseen l is.length < fuel →
      addThread is cx sp fuel l pc cap = .ok l' →
      K is classes cx n (pc, ⟨sp, rest, cap⟩) = some r →
      FirstOf is classes cx sp rest l.threads none →
      (∀ d, l.Seen d → stack d ∨ Vnone is classes cx sp rest d) →
      (∀ d, stack d → K is classes cx n (d, ⟨sp, rest, (0, 0)⟩) = none) →
      FirstOf is classes cx sp rest l'.threads r ∧
      (r = none → ∀ d, l'.Seen d → l.Seen d ∨ Vnone is classes cx sp rest d) := by
  intro n
  induction n with
  | zero => intro fuel l l' pc cap stack r _ _ _ _ hk; simp [K] at hk
  | succ n ih =>
    intro fuel l l' pc cap stack r hpc hc hu hadd hk hF hinv hst
    -- if a smaller depth already determines the value, use the induction hypothesis
    cases hk0 : K is classes cx n (pc, ⟨sp, rest, cap⟩) with
    | some r0 =>
      have hr : r0 = r := by
        have := K_succ hk0; rw [hk] at this; exact (Option.some.inj this).symm
      subst hr
      refine ih fuel l l' pc cap stack r0 hpc hc hu hadd hk0 hF hinv ?_
      intro d hd
      cases hx : K is classes cx n (d, ⟨sp, rest, (0, 0)⟩) with
      | none => rfl
      | some y => have := K_succ hx; rw [hst d hd] at this; cases this
    | none =>
      obtain ⟨fuel, rfl⟩ : ∃ f, fuel = f + 1 := ⟨fuel - 1, by omega⟩
      obtain ⟨v, hv⟩ := Bitset.get_of_covers hc hpc
      cases v with
      | true =>
        rw [addThread_seen hv] at hadd
        cases hadd
        rcases hinv pc hv with hs | hn
        · have h1 := hst pc hs
          obtain ⟨r', h2, _⟩ := K_def_recap hk (0, 0)
          simp only at h2
          rw [h1] at h2; cases h2
        · have : r = none := V.det ⟨_, hk⟩ (hn.at cap)
          subst this
          exact ⟨hF, fun _ d hd => Or.inl hd⟩
      | false =>
        obtain ⟨i, hi⟩ : ∃ i, is[pc]? = some i := ⟨is[pc], by simp [hpc]⟩
        rw [addThread_unseen hv hi] at hadd
        have hget := fun j => Bitset.get_insert hc hpc j
        have hseen : ∀ ts d, ThreadList.Seen ⟨ts, l.seen.insert pc⟩ d ↔ d = pc ∨ l.Seen d := by
          intro ts d; simp only [ThreadList.Seen, hget]; by_cases h : d = pc <;> simp [h]
        cases hstop : i.stops with
        | true =>
          simp only [hstop, if_true] at hadd
          cases hadd
          constructor
          · apply hF.append_none
            cases r with
            | none => exact .miss ⟨_, hk⟩ .nil
            | some x => exact .hit ⟨_, hk⟩
          · rintro rfl d hd
            rcases (hseen _ d).1 hd with rfl | hd
            · exact Or.inr (Vnone.of ⟨_, hk⟩)
            · exact Or.inl hd
        | false =>
          simp only [hstop, Bool.false_eq_true, if_false] at hadd
          rw [K_eps hi hstop] at hk
          have hul : unseen ⟨l.threads, l.seen.insert pc⟩ is.length < fuel := by
            have := unseen_insert hc hpc hv l.threads; omega
          -- process the successors
          have key : ∀ (qs : List (Nat × (Nat × Nat))) (l1 : ThreadList) (r : Option St),
              (∀ q ∈ qs, q.1 < is.length) → l1.seen.Covers is.length → unseen l1 is.length < fuel →
              addAll is cx sp fuel qs l1 = .ok l' →
              firstL (fun e => K is classes cx n (e.1, ⟨sp, rest, e.2⟩)) qs = some r →
              FirstOf is classes cx sp rest l1.threads none →
              (∀ d, l1.Seen d → (d = pc ∨ stack d) ∨ Vnone is classes cx sp rest d) →
              FirstOf is classes cx sp rest l'.threads r ∧
              (r = none → ∀ d, l'.Seen d → l1.Seen d ∨ Vnone is classes cx sp rest d) := by
            intro qs
            induction qs with
            | nil =>
              intro l1 r _ _ _ h1 h2 h3 _
              simp only [addAll] at h1; cases h1
              simp only [firstL] at h2; cases h2
              exact ⟨h3, fun _ d hd => Or.inl hd⟩
            | cons q qs IH =>
              intro l1 r hq hc1 hu1 h1 h2 h3 h4
              simp only [addAll] at h1
              obtain ⟨l2, e2, p2⟩ := addThread_post wf cx sp fuel l1 q.1 q.2 (hq q (by simp)) hc1 hu1
              rw [e2] at h1
              simp only at h1
              have hu2 : unseen l2 is.length < fuel := Nat.lt_of_le_of_lt (unseen_le p2.mono) hu1
              simp only [firstL] at h2
              cases hkq : K is classes cx n (q.1, ⟨sp, rest, q.2⟩) with
              | none => simp [hkq] at h2
              | some rq =>
                obtain ⟨g1, g2⟩ := ih fuel l1 l2 q.1 q.2 (fun d => d = pc ∨ stack d) rq (hq q (by simp)) hc1 hu1 e2 hkq h3 h4
                  (by
                    rintro d (rfl | hd)
                    · cases hx : K is classes cx n (d, ⟨sp, rest, (0, 0)⟩) with
                      | none => rfl
                      | some y =>
                        obtain ⟨y', hy, _⟩ := K_def_recap hx cap
                        simp only at hy
                        rw [hk0] at hy; cases hy
                    · cases hx : K is classes cx n (d, ⟨sp, rest, (0, 0)⟩) with
                      | none => rfl
                      | some y => have := K_succ hx; rw [hst d hd] at this; cases this)
                cases rq with
                | some x =>
                  simp only [hkq] at h2; cases h2
                  have p3 := addAll_extends wf cx sp fuel (fun q' h => hq q' (by simp [h])) p2.covers hu2 h1
                  obtain ⟨new, hnew, _⟩ := p3.new
                  refine ⟨?_, by simp⟩
                  rw [hnew]; exact g1.append_some new
                | none =>
                  simp only [hkq] at h2
                  obtain ⟨k1, k2⟩ := IH l2 r (fun q' h => hq q' (by simp [h])) p2.covers hu2 h1 h2 g1
                    (fun d hd => (g2 rfl d hd).elim (h4 d) Or.inr)
                  refine ⟨k1, fun hr d hd => ?_⟩
                  rcases k2 hr d hd with h | h
                  · exact g2 rfl d h
                  · exact Or.inr h
          obtain ⟨k1, k2⟩ := key (epsSucc cx sp i pc cap) ⟨l.threads, l.seen.insert pc⟩ r
            (fun q hq => wf.succ pc i hi cx sp cap q hq) (Bitset.covers_insert hc) hul hadd hk hF
            (fun d hd => by
              rcases (hseen _ d).1 hd with rfl | hd
              · exact Or.inl (Or.inl rfl)
              · exact (hinv d hd).elim (fun h => Or.inl (Or.inr h)) Or.inr)
          refine ⟨k1, ?_⟩
          rintro rfl d hd
          rcases k2 rfl d hd with h | h
          · rcases (hseen _ d).1 h with rfl | h
            · refine Or.inr (Vnone.of (cap := cap) ⟨n + 1, ?_⟩)
              rw [K_eps hi hstop]; exact hk
            · exact Or.inl h
          · exact Or.inr h

/-- How the final state of a thread is recorded. -/
def toMatched (total : Nat) (x : St) : Matched := (x.cap, total - x.rest.length, 0)

theorem V_stop {is cl cx} {pc : Nat} {s : St} {i : Instr} {r} (hi : is[pc]? = some i) (hs : i.stops = true)
    (hm : ∀ k, i ≠ .mtch k) (h : V is cl cx (pc, s) r) :
    (s.rest = [] ∧ r = none) ∨ ∃ c t, s.rest = c :: t ∧
      ((consumes cl cx.lower i (some c) = .ok none ∧ r = none) ∨
        (consumes cl cx.lower i (some c) = .ok (some c) ∧ V is cl cx (pc + 1, s.adv c t) r)) := by
  obtain ⟨n, h⟩ := h
  cases n with
  | zero => simp [K] at h
  | succ n =>
    rw [K_stop hi hs hm] at h
    cases hr : s.rest with
    | nil => simp [hr] at h; exact Or.inl ⟨rfl, h.symm⟩
    | cons c t =>
      simp only [hr] at h
      refine Or.inr ⟨c, t, rfl, ?_⟩
      cases hc : consumes cl cx.lower i (some c) with
      | error e => simp [hc] at h
      | ok o =>
        cases o with
        | none => simp [hc] at h; exact Or.inl ⟨rfl, h.symm⟩
        | some x =>
          have hx := (consumes_some hc).1
          simp at hx; subst hx
          simp only [hc] at h
          exact Or.inr ⟨rfl, n, h⟩

theorem consumes_none_next {cl lower i o} (h : consumes cl lower i none = .ok o) : o = none := by
  cases i <;> simp_all [consumes]

/-- One pass over the threads, with preferences. `sp'`/`rest'` are the position after the next character. -/
theorem stepThreads_first {is classes cx nt} (wf : WF is classes nt) (h0 : ∀ (pc k : Nat), is[pc]? = some (.mtch k) → k = 0)
    (sp length : Nat) (rest : List Char) (total : Nat) (htot : length + rest.length = total)
    (sp' : Nat) (rest' : List Char) (hnext : ∀ c t, rest = c :: t → sp' = sp + c.utf8Size ∧ rest' = t) :
    ∀ (ts : List Thread) (nl nl' : ThreadList) (m m' : Option Matched) (r : Option St), Stopped is ts →
      nl.seen.Covers is.length →
      stepThreads is classes cx sp length rest.head? ts nl m = .ok (nl', m') →
      FirstOf is classes cx sp rest ts r →
      FirstOf is classes cx sp' rest' nl.threads none →
      (∀ d, nl.Seen d → Vnone is classes cx sp' rest' d) →
      ∃ r1, FirstOf is classes cx sp' rest' nl'.threads r1 ∧
        (r1.map (toMatched total)).or m' = (r.map (toMatched total)).or m ∧ (rest = [] → r1 = none) := by
  intro ts
  induction ts with
  | nil =>
    intro nl nl' m m' r _ _ h hF hN _
    simp only [stepThreads, Except.ok.injEq, Prod.mk.injEq] at h
    obtain ⟨rfl, rfl⟩ := h
    cases hF
    exact ⟨none, hN, rfl, fun _ => rfl⟩
  | cons t ts ih =>
    intro nl nl' m m' r hst hc h hF hN hinv
    obtain ⟨i, hi, his⟩ := hst t (by simp)
    have hst' : Stopped is ts := fun t' h => hst t' (by simp [h])
    by_cases hm : ∃ idx, i = .mtch idx
    · obtain ⟨idx, rfl⟩ := hm
      obtain rfl := h0 _ _ hi
      simp only [stepThreads, hi, Except.ok.injEq, Prod.mk.injEq] at h
      obtain ⟨rfl, rfl⟩ := h
      have hv : V is classes cx (t.pc, ⟨sp, rest, t.cap⟩) (some ⟨sp, rest, t.cap⟩) := ⟨1, K_mtch hi⟩
      have hr : r = some ⟨sp, rest, t.cap⟩ := by
        cases hF with
        | hit h => exact (V.det h hv)
        | miss h _ => have := V.det h hv; cases this
      subst hr
      refine ⟨none, hN, ?_, fun _ => rfl⟩
      have : total - rest.length = length := by omega
      simp [toMatched, this]
    · have hm' : ∀ k, i ≠ .mtch k := fun k h => hm ⟨k, h⟩
      have hunf : stepThreads is classes cx sp length rest.head? (t :: ts) nl m =
          match consumes classes cx.lower i rest.head? with
          | .error e => .error e
          | .ok none => stepThreads is classes cx sp length rest.head? ts nl m
          | .ok (some c) =>
            match addThread is cx (sp + c.utf8Size) (is.length + 1) nl (t.pc + 1) t.cap with
            | .error e => .error e
            | .ok nl => stepThreads is classes cx sp length rest.head? ts nl m := by
        rw [stepThreads]; simp only [hi]
        cases i <;> first | rfl | (exact absurd rfl (hm' _))
      rw [hunf] at h
      have hext : ∀ (nl1 nl' : ThreadList) (m m' : Option Matched) (x : St), nl1.seen.Covers is.length →
          stepThreads is classes cx sp length rest.head? ts nl1 m = .ok (nl', m') →
          FirstOf is classes cx sp' rest' nl1.threads (some x) →
          FirstOf is classes cx sp' rest' nl'.threads (some x) := by
        intro nl1 nl' m m' x hc1 hs hf
        obtain ⟨nl2, m2, e, _, _, _, _, ⟨new, hnew, _⟩, _⟩ := stepThreads_spec (cx := cx) wf sp length rest ts nl1 m hst' hc1
        rw [hs] at e; cases e
        rw [hnew]; exact hf.append_some new
      -- the value of the first thread
      have hval : ∃ r0, V is classes cx (t.pc, ⟨sp, rest, t.cap⟩) r0 ∧
          ((∃ x, r0 = some x ∧ r = some x) ∨ (r0 = none ∧ FirstOf is classes cx sp rest ts r)) := by
        cases hF with
        | hit h => exact ⟨_, h, Or.inl ⟨_, rfl, rfl⟩⟩
        | miss h hr => exact ⟨_, h, Or.inr ⟨rfl, hr⟩⟩
      obtain ⟨r0, hv, hcase⟩ := hval
      rcases V_stop hi his hm' hv with ⟨hr, rfl⟩ | ⟨c, tl, hr, hcons⟩
      · -- no input left
        simp only at hr
        subst hr
        rcases hcase with ⟨x, h1, _⟩ | ⟨_, hF'⟩
        · cases h1
        · cases hcs : consumes classes cx.lower i ([] : List Char).head? with
          | error e => rw [hcs] at h; cases h
          | ok o =>
            have := consumes_none_next hcs
            subst this
            rw [hcs] at h
            exact ih nl nl' m m' r hst' hc h hF' hN hinv
      · simp only at hr
        subst hr
        rcases hcons with ⟨hcs, rfl⟩ | ⟨hcs, hv'⟩
        · simp only [List.head?_cons, hcs] at h
          rcases hcase with ⟨x, h1, _⟩ | ⟨_, hF'⟩
          · cases h1
          · exact ih nl nl' m m' r hst' hc h hF' hN hinv
        · simp only [List.head?_cons, hcs] at h
          obtain ⟨rfl, rfl⟩ := hnext c tl rfl
          obtain ⟨l1, e1, p1⟩ := addThread_post wf cx (sp + c.utf8Size) (is.length + 1) nl (t.pc + 1) t.cap
            (wf.next _ _ hi his hm') hc (unseen_lt _ _)
          rw [e1] at h
          simp only at h
          obtain ⟨n, hk⟩ := hv'
          obtain ⟨g1, g2⟩ := addThread_first wf cx (sp + c.utf8Size) rest' n (is.length + 1) nl l1 (t.pc + 1) t.cap
            (fun _ => False) r0 (wf.next _ _ hi his hm') hc (unseen_lt _ _) e1 hk hN (fun d hd => Or.inr (hinv d hd))
            (fun _ h => h.elim)
          rcases hcase with ⟨x, rfl, rfl⟩ | ⟨rfl, hF'⟩
          · refine ⟨some x, hext l1 nl' m m' x p1.covers h g1, by simp, by simp⟩
          · exact ih l1 nl' m m' r hst' p1.covers h hF' g1 (fun d hd => (g2 rfl d hd).elim (hinv d) id)

/-- The main loop returns the first success of the threads, else the match found so far. -/
theorem runLoop_first {is classes cx nt} (wf : WF is classes nt) (h0 : ∀ (pc k : Nat), is[pc]? = some (.mtch k) → k = 0)
    (total : Nat) :
    ∀ (rest : List Char) (sp length : Nat) (cur oth : ThreadList) (m : Option Matched) (r : Option St),
      Stopped is cur.threads → cur.seen.Covers is.length → oth.seen.Covers is.length →
      length + rest.length = total → FirstOf is classes cx sp rest cur.threads r →
      runLoop is classes cx rest sp length cur oth m = .ok ((r.map (toMatched total)).or m) := by
  intro rest
  induction rest with
  | nil =>
    intro sp length cur oth m r hst hc ho htot hF
    unfold runLoop
    by_cases hemp : cur.threads.isEmpty = true
    · have : cur.threads = [] := by simpa using hemp
      rw [this] at hF; cases hF; simp [hemp]
    · simp only [hemp, Bool.false_eq_true, if_false]
      obtain ⟨nl', m', e, _⟩ :=
        stepThreads_spec (cx := cx) wf sp length [] cur.threads oth.startStep m hst (Bitset.covers_clear ho)
      obtain ⟨r1, g1, g2, g3⟩ := stepThreads_first wf h0 sp length [] total htot sp [] (by intro c t h; cases h) cur.threads
        oth.startStep nl' m m' r hst (Bitset.covers_clear ho) e hF .nil
        (fun d hd => absurd hd (Bitset.get_clear oth.seen d))
      obtain rfl := g3 rfl
      simp only [e]
      rw [← g2]; simp
  | cons c rest ih =>
    intro sp length cur oth m r hst hc ho htot hF
    unfold runLoop
    by_cases hemp : cur.threads.isEmpty = true
    · have : cur.threads = [] := by simpa using hemp
      rw [this] at hF; cases hF; simp [hemp]
    · simp only [hemp, Bool.false_eq_true, if_false]
      obtain ⟨nl, m1, e, h1, h2, h3, _⟩ :=
        stepThreads_spec (cx := cx) wf sp length (c :: rest) cur.threads oth.startStep m hst (Bitset.covers_clear ho)
      obtain ⟨r1, g1, g2, _⟩ := stepThreads_first wf h0 sp length (c :: rest) total htot (sp + c.utf8Size) rest
        (by intro c' t h; cases h; exact ⟨rfl, rfl⟩) cur.threads
        oth.startStep nl m m1 r hst (Bitset.covers_clear ho) e hF .nil
        (fun d hd => absurd hd (Bitset.get_clear oth.seen d))
      have hst1 : Stopped is nl.threads := h3 (by intro t ht; simp [ThreadList.startStep] at ht)
      simp only [e]
      rw [ih (sp + c.utf8Size) (length + 1) nl cur m1 r1 hst1 h1 hc (by simp at htot; omega) g1, g2]

/-! ### The preference order of the code of an expression -/

/-- First success of the configurations `(b, t)` for `t` in the list. -/
inductive FirstAt (is : List Instr) (cl : List (List Char)) (cx : Ctx) (b : Nat) : List St → Option St → Prop
  | nil : FirstAt is cl cx b [] none
  | hit {t ts x} (h : V is cl cx (b, t) (some x)) : FirstAt is cl cx b (t :: ts) (some x)
  | miss {t ts r} (h : V is cl cx (b, t) none) (hr : FirstAt is cl cx b ts r) : FirstAt is cl cx b (t :: ts) r

theorem FirstAt.split {is cl cx b} : ∀ {l l' : List St} {r}, FirstAt is cl cx b (l ++ l') r →
    (∃ x, r = some x ∧ FirstAt is cl cx b l (some x)) ∨ (FirstAt is cl cx b l none ∧ FirstAt is cl cx b l' r)
  | [], l', r, h => Or.inr ⟨.nil, h⟩
  | t :: l, l', r, h => by
    cases h with
    | hit h => exact Or.inl ⟨_, rfl, .hit h⟩
    | miss h hr =>
      rcases FirstAt.split hr with ⟨x, rfl, h'⟩ | ⟨h1, h2⟩
      · exact Or.inl ⟨x, rfl, .miss h h'⟩
      · exact Or.inr ⟨.miss h h1, h2⟩

/-- If each outcome of a first part leads into the second part, combine. -/
theorem FirstAt.bind {is cl cx a b} {f : St → List St} : ∀ {l : List St} {r},
    (∀ t ∈ l, ∀ r, FirstAt is cl cx b (f t) r → V is cl cx (a, t) r) → FirstAt is cl cx b (l.flatMap f) r →
    FirstAt is cl cx a l r
  | [], r, _, h => by cases h; exact .nil
  | t :: l, r, hf, h => by
    rw [List.flatMap_cons] at h
    rcases FirstAt.split h with ⟨x, rfl, h'⟩ | ⟨h1, h2⟩
    · exact .hit (hf t (by simp) _ h')
    · exact .miss (hf t (by simp) _ h1) (FirstAt.bind (fun t' ht' => hf t' (by simp [ht'])) h2)

theorem FirstAt.single {is cl cx b t r} (h : FirstAt is cl cx b [t] r) : V is cl cx (b, t) r := by
  cases h with
  | hit h => exact h
  | miss h hr => cases hr; exact h

theorem V_eps1 {is cl cx} {pc : Nat} {s : St} {i : Instr} {e : Nat × (Nat × Nat)} {r} (hi : is[pc]? = some i) (hs : i.stops = false)
    (he : epsSucc cx s.sp i pc s.cap = [e]) (h : V is cl cx (e.1, { s with cap := e.2 }) r) : V is cl cx (pc, s) r := by
  obtain ⟨n, h⟩ := h
  refine ⟨n + 1, ?_⟩
  rw [K_eps hi hs, he]
  simp only [firstL, h]
  cases r <;> rfl

theorem V_eps0 {is cl cx} {pc : Nat} {s : St} {i : Instr} (hi : is[pc]? = some i) (hs : i.stops = false)
    (he : epsSucc cx s.sp i pc s.cap = []) : V is cl cx (pc, s) none := by
  refine ⟨1, ?_⟩
  rw [K_eps hi hs, he]; rfl

theorem V_jump {is cl cx} {pc t : Nat} {s : St} {r} (hi : is[pc]? = some (.jump t)) (h : V is cl cx (t, s) r) :
    V is cl cx (pc, s) r := V_eps1 hi rfl rfl h

theorem V_split_hit {is cl cx} {pc a b : Nat} {s : St} {x} (hi : is[pc]? = some (.split a b))
    (h : V is cl cx (a, s) (some x)) : V is cl cx (pc, s) (some x) := by
  obtain ⟨n, h⟩ := h
  refine ⟨n + 1, ?_⟩
  rw [K_eps hi rfl]
  simp only [epsSucc, firstL, h]

theorem V_split_miss {is cl cx} {pc a b : Nat} {s : St} {r} (hi : is[pc]? = some (.split a b))
    (h : V is cl cx (a, s) none) (h' : V is cl cx (b, s) r) : V is cl cx (pc, s) r := by
  obtain ⟨n, h⟩ := h
  obtain ⟨m, h'⟩ := h'
  refine ⟨max n m + 1, ?_⟩
  rw [K_eps hi rfl]
  simp only [epsSucc, firstL, K_mono h (Nat.le_max_left n m), K_mono h' (Nat.le_max_right n m)]
  cases r <;> rfl

/-- A `split` whose branches are known. -/
theorem V_split {is cl cx} {pc a b : Nat} {s : St} {l l' : List St} {e : Nat} {r} (hi : is[pc]? = some (.split a b))
    (h : FirstAt is cl cx e (l ++ l') r)
    (ha : ∀ r, FirstAt is cl cx e l r → V is cl cx (a, s) r) (hb : ∀ r, FirstAt is cl cx e l' r → V is cl cx (b, s) r) :
    V is cl cx (pc, s) r := by
  rcases FirstAt.split h with ⟨x, rfl, h'⟩ | ⟨h1, h2⟩
  · exact V_split_hit hi (ha _ h')
  · exact V_split_miss hi (ha _ h1) (hb _ h2)

theorem V_eat {is cl cx} {a : Nat} {i : Instr} {s : St} {p : Char → Bool} {r} (hi : is[a]? = some i)
    (hs : i.stops = true) (hm : ∀ k, i ≠ .mtch k)
    (hc : ∀ c, consumes cl cx.lower i (some c) = .ok (if p c then some c else none))
    (h : FirstAt is cl cx (a + 1) (eat p s) r) : V is cl cx (a, s) r := by
  unfold eat at h
  cases hr : s.rest with
  | nil =>
    simp only [hr] at h; cases h
    exact ⟨1, by rw [K_stop hi hs hm]; simp [hr]⟩
  | cons c t =>
    simp only [hr] at h
    by_cases hp : p c = true
    · simp only [hp, if_true] at h
      obtain ⟨n, h⟩ := h.single
      refine ⟨n + 1, ?_⟩
      rw [K_stop hi hs hm]
      simp only [hr, hc c, hp, if_true, h]
    · simp only [hp, Bool.false_eq_true, if_false] at h; cases h
      exact ⟨1, by rw [K_stop hi hs hm]; simp [hr, hc c, hp]⟩

theorem V_eatAll {is cl cx} {f : Char → Instr} {p : Char → Char → Bool} (hs : ∀ e, (f e).stops = true)
    (hm : ∀ e k, f e ≠ .mtch k)
    (hc : ∀ e c, consumes cl cx.lower (f e) (some c) = .ok (if p e c then some c else none)) :
    ∀ (es : List Char) (a : Nat) (s : St) (r), (∀ j, j < es.length → is[a + j]? = (es.map f)[j]?) →
      FirstAt is cl cx (a + es.length) (eatAll p es s) r → V is cl cx (a, s) r := by
  intro es
  induction es with
  | nil => intro a s r _ h; exact h.single
  | cons e es ih =>
    intro a s r hi h
    have h0 := hi 0 (by simp)
    simp at h0
    have e1 : a + (e :: es).length = a + 1 + es.length := by simp; omega
    rw [e1] at h
    refine V_eat h0 (hs e) (hm e) (hc e) (FirstAt.bind (fun t _ r hr => ?_) h)
    refine ih (a + 1) t r (fun j hj => ?_) hr
    have := hi (j + 1) (by simp; omega)
    simp only [List.map_cons, List.getElem?_cons_succ] at this
    rw [← this]; congr 1; omega

theorem V_times {is cl cx} {step : St → List St} {F : Nat → Nat → Prop}
    (ih : ∀ a b s r, F a b → s.Ok cx → FirstAt is cl cx b (step s) r → V is cl cx (a, s) r)
    (hok : ∀ s t, s.Ok cx → t ∈ step s → t.Ok cx) :
    ∀ (n a b : Nat) (s : St) (r), FragN F n a b → s.Ok cx → FirstAt is cl cx b (timesPrefs step n s) r →
      V is cl cx (a, s) r := by
  intro n
  induction n with
  | zero => intro a b s r hf _ h; simp [FragN] at hf; subst hf; exact h.single
  | succ n IH =>
    rintro a b s r ⟨m, h1, h2⟩ hs h
    exact ih a m s r h1 hs (FirstAt.bind (fun t ht r hr => IH m b t r h2 (hok s t hs ht) hr) h)

theorem starPrefs_fuel (step : St → List St) : ∀ (k n m : Nat) (s : St), s.rest.length = k → k ≤ n → k ≤ m →
    starPrefs step n s = starPrefs step m s := by
  intro k
  induction k using Nat.strongRecOn with
  | ind k IH =>
    intro n m s hk hn hm
    have key : ∀ n, k ≤ n → starPrefs step n s =
        (step s).flatMap (fun t => if t.rest.length < s.rest.length then starPrefs step t.rest.length t else []) ++ [s] := by
      intro n hn
      cases n with
      | zero =>
        have : ∀ t : St, ¬ t.rest.length < s.rest.length := by intro t; omega
        simp [starPrefs, this]
      | succ n =>
        simp only [starPrefs]
        congr 2
        funext t
        by_cases ht : t.rest.length < s.rest.length
        · simp only [ht, if_true]
          exact IH t.rest.length (by omega) _ _ t rfl (by omega) (Nat.le_refl _)
        · simp [ht]
    rw [key n hn, key m hm]

theorem starPrefs_eq (step : St → List St) (s : St) : starPrefs step s.rest.length s =
    (step s).flatMap (fun t => if t.rest.length < s.rest.length then starPrefs step t.rest.length t else []) ++ [s] := by
  rw [starPrefs_fuel step s.rest.length _ (s.rest.length + 1) s rfl (Nat.le_refl _) (by omega)]
  simp only [starPrefs]
  congr 2
  funext t
  by_cases ht : t.rest.length < s.rest.length
  · simp only [ht, if_true]
    exact starPrefs_fuel step t.rest.length _ _ t rfl (by omega) (Nat.le_refl _)
  · simp [ht]

/-- The loop `p: split (p+1) b; body; m: jump p`. -/
theorem V_star {is cl cx} {step : St → List St} {p b m : Nat} (h0 : is[p]? = some (.split (p + 1) b))
    (hj : is[m]? = some (.jump p))
    (ih : ∀ s r, s.Ok cx → FirstAt is cl cx m (step s) r → V is cl cx (p + 1, s) r)
    (hok : ∀ s t, s.Ok cx → t ∈ step s → t.Ok cx ∧ t.rest.length < s.rest.length) :
    ∀ (k : Nat) (s : St) (r), s.rest.length = k → s.Ok cx → FirstAt is cl cx b (starPrefs step s.rest.length s) r →
      V is cl cx (p, s) r := by
  intro k
  induction k using Nat.strongRecOn with
  | ind k IH =>
    intro s r hk hs h
    rw [starPrefs_eq] at h
    refine V_split h0 h (fun r hr => ih s r hs ?_) (fun r hr => hr.single)
    refine FirstAt.bind (fun t ht r hr => ?_) hr
    have := hok s t hs ht
    simp only [this.2, if_true] at hr
    exact V_jump hj (IH t.rest.length (by omega) t r rfl this.1 hr)

/-! Every preference is a later position. -/

theorem mem_eat {p : Char → Bool} {s t : St} (h : t ∈ eat p s) : ∃ c l, s.rest = c :: l ∧ p c = true ∧ t = s.adv c l := by
  unfold eat at h
  cases hr : s.rest with
  | nil => simp [hr] at h
  | cons c l =>
    simp only [hr] at h
    by_cases hp : p c = true
    · simp [hp] at h; exact ⟨c, l, rfl, hp, h⟩
    · simp [hp] at h

/-- `t` is reached from `s` by consuming characters. -/
structure Later (cx : Ctx) (s t : St) : Prop where
  ok : s.Ok cx → t.Ok cx
  le : t.rest.length ≤ s.rest.length

theorem Later.refl {cx s} : Later cx s s := ⟨id, Nat.le_refl _⟩
theorem Later.trans {cx s t u} (h : Later cx s t) (h' : Later cx t u) : Later cx s u :=
  ⟨fun x => h'.ok (h.ok x), Nat.le_trans h'.le h.le⟩

theorem later_eat {cx : Ctx} {p : Char → Bool} {s t : St} (h : t ∈ eat p s) :
    Later cx s t ∧ t.rest.length < s.rest.length := by
  obtain ⟨c, l, hr, _, rfl⟩ := mem_eat h
  refine ⟨⟨fun hs => ?_, ?_⟩, ?_⟩
  · unfold St.Ok at *; simp only [hr, utf8Len] at hs; simp only [St.adv]; omega
  · simp [St.adv, hr]
  · simp [St.adv, hr]

theorem later_eatAll {cx : Ctx} {p : Char → Char → Bool} : ∀ {es : List Char} {s t : St}, t ∈ eatAll p es s →
    Later cx s t ∧ (es ≠ [] → t.rest.length < s.rest.length)
  | [], s, t, h => by simp [eatAll] at h; subst h; exact ⟨.refl, by simp⟩
  | e :: es, s, t, h => by
    simp only [eatAll, List.mem_flatMap] at h
    obtain ⟨u, hu, h⟩ := h
    have a := later_eat (cx := cx) hu
    have b := later_eatAll (cx := cx) h
    exact ⟨a.1.trans b.1, fun _ => by have := b.1.le; omega⟩

theorem later_times {cx : Ctx} {step : St → List St} (ih : ∀ s t, t ∈ step s → Later cx s t) :
    ∀ {n : Nat} {s t : St}, t ∈ timesPrefs step n s → Later cx s t
  | 0, s, t, h => by simp [timesPrefs] at h; subst h; exact .refl
  | n + 1, s, t, h => by
    simp only [timesPrefs, List.mem_flatMap] at h
    obtain ⟨u, hu, h⟩ := h
    exact (ih s u hu).trans (later_times ih h)

theorem later_star {cx : Ctx} {step : St → List St} (ih : ∀ s t, t ∈ step s → Later cx s t) :
    ∀ {n : Nat} {s t : St}, t ∈ starPrefs step n s → Later cx s t
  | 0, s, t, h => by simp [starPrefs] at h; subst h; exact .refl
  | n + 1, s, t, h => by
    simp only [starPrefs, List.mem_append, List.mem_flatMap, List.mem_singleton] at h
    rcases h with ⟨u, hu, h⟩ | rfl
    · split at h
      · exact (ih s u hu).trans (later_star ih h)
      · simp at h
    · exact .refl

theorem prefs_later {cx : Ctx} : ∀ (r : Regexp) (s t : St), t ∈ prefs cx.lower cx.env cx.atStart r s →
    Later cx s t ∧ (nullable r = false → t.rest.length < s.rest.length) := by
  intro r
  induction r with
  | literal c => intro s t h; have := later_eat (cx := cx) h; exact ⟨this.1, fun _ => this.2⟩
  | any => intro s t h; have := later_eat (cx := cx) h; exact ⟨this.1, fun _ => this.2⟩
  | cls c => intro s t h; have := later_eat (cx := cx) h; exact ⟨this.1, fun _ => this.2⟩
  | notCls c => intro s t h; have := later_eat (cx := cx) h; exact ⟨this.1, fun _ => this.2⟩
  | string c | notString c | ciString c =>
    intro s t h; have := later_eatAll (cx := cx) h
    exact ⟨this.1, fun hn => this.2 (by simpa [nullable] using hn)⟩
  | varEq i v | notVarEq i v | endAnchor | startAnchor =>
    intro s t h; simp only [prefs] at h; split at h <;> simp at h
    subst h; exact ⟨.refl, by simp [nullable]⟩
  | notEndAnchor | notStartAnchor =>
    intro s t h; simp only [prefs] at h; split at h <;> simp at h
    subst h; exact ⟨.refl, by simp [nullable]⟩
  | empty => intro s t h; simp [prefs] at h; subst h; exact ⟨.refl, by simp [nullable]⟩
  | never => intro s t h; simp [prefs] at h
  | group r ih => exact ih
  | concat l r ihl ihr =>
    intro s t h
    simp only [prefs, List.mem_flatMap] at h
    obtain ⟨u, hu, h⟩ := h
    have a := ihl s u hu
    have b := ihr u t h
    refine ⟨a.1.trans b.1, fun hn => ?_⟩
    have h1 := a.1.le; have h2 := b.1.le
    simp only [nullable, Bool.and_eq_false_iff] at hn
    rcases hn with hn | hn
    · have := a.2 hn; omega
    · have := b.2 hn; omega
  | either l r ihl ihr =>
    intro s t h
    simp only [prefs, List.mem_append] at h
    rcases h with h | h
    · exact ⟨(ihl s t h).1, fun hn => (ihl s t h).2 (by simp [nullable] at hn; exact hn.1)⟩
    · exact ⟨(ihr s t h).1, fun hn => (ihr s t h).2 (by simp [nullable] at hn; exact hn.2)⟩
  | optional r ih =>
    intro s t h
    simp only [prefs, List.mem_append, List.mem_singleton] at h
    rcases h with h | rfl
    · exact ⟨(ih s t h).1, by simp [nullable]⟩
    · exact ⟨.refl, by simp [nullable]⟩
  | zeroOrMore r ih =>
    intro s t h
    exact ⟨later_star (fun s t h => (ih s t h).1) h, by simp [nullable]⟩
  | oneOrMore r ih =>
    intro s t h
    simp only [prefs, List.mem_flatMap] at h
    obtain ⟨u, hu, h⟩ := h
    have b := later_star (cx := cx) (fun s t h => (ih s t h).1) h
    refine ⟨(ih s u hu).1.trans b, fun hn => ?_⟩
    have := (ih s u hu).2 (by simpa [nullable] using hn)
    have := b.le; omega
  | repeatExactly n r ih =>
    intro s t h
    refine ⟨later_times (fun s t h => (ih s t h).1) h, fun hn => ?_⟩
    simp [nullable] at hn
    cases n with
    | zero => simp at hn
    | succ n =>
      simp only [prefs, timesPrefs, List.mem_flatMap] at h
      obtain ⟨u, hu, h⟩ := h
      have := (ih s u hu).2 hn.2
      have := (later_times (cx := cx) (fun s t h => (ih s t h).1) h).le
      omega
  | repeatAtLeast n r ih =>
    intro s t h
    simp only [prefs, List.mem_flatMap] at h
    obtain ⟨v, hv, h⟩ := h
    have b := later_star (cx := cx) (fun s t h => (ih s t h).1) h
    refine ⟨(later_times (fun s t h => (ih s t h).1) hv).trans b, fun hn => ?_⟩
    simp [nullable] at hn
    cases n with
    | zero => simp at hn
    | succ n =>
      simp only [timesPrefs, List.mem_flatMap] at hv
      obtain ⟨u, hu, hv⟩ := hv
      have := (ih s u hu).2 hn.2
      have := (later_times (cx := cx) (fun s t h => (ih s t h).1) hv).le
      have := b.le
      omega
  | repeatAtLeastAtMost n m r ih =>
    intro s t h
    simp only [prefs, List.mem_flatMap] at h
    obtain ⟨v, hv, h⟩ := h
    have b := later_star (cx := cx) (fun s t h => (ih s t h).1) h
    refine ⟨(later_times (fun s t h => (ih s t h).1) hv).trans b, fun hn => ?_⟩
    simp [nullable] at hn
    cases n with
    | zero => simp at hn
    | succ n =>
      simp only [timesPrefs, List.mem_flatMap] at hv
      obtain ⟨u, hu, hv⟩ := hv
      have := (ih s u hu).2 hn.2
      have := (later_times (cx := cx) (fun s t h => (ih s t h).1) hv).le
      have := b.le
      omega
  | capture r ih =>
    intro s t h
    simp only [prefs, List.mem_map] at h
    obtain ⟨u, hu, rfl⟩ := h
    have := ih _ u hu
    exact ⟨⟨this.1.ok, this.1.le⟩, this.2⟩

/-- The code of an expression behaves as its preference list. -/
theorem frag_first {is cl cx} : ∀ (r : Regexp) (a b : Nat) (s : St) (res), Frag is cl r a b → SimpleLoops r → s.Ok cx →
    FirstAt is cl cx b (prefs cx.lower cx.env cx.atStart r s) res → V is cl cx (a, s) res := by
  have hlater : ∀ (r : Regexp) (s t : St), s.Ok cx → t ∈ prefs cx.lower cx.env cx.atStart r s → t.Ok cx :=
    fun r s t hs ht => (prefs_later r s t ht).1.ok hs
  intro r
  induction r with
  | literal c =>
    rintro a b s res ⟨hi, rfl⟩ _ hs h
    exact V_eat hi rfl (by simp) (by intro c; simp [consumes, Option.filter]) h
  | any =>
    rintro a b s res ⟨hi, rfl⟩ _ hs h
    exact V_eat hi rfl (by simp) (by intro c; simp [consumes]) h
  | cls cs =>
    rintro a b s res ⟨k, hi, hk, rfl⟩ _ hs h
    exact V_eat hi rfl (by simp) (by intro c; simp [consumes, hk, Option.filter]) h
  | notCls cs =>
    rintro a b s res ⟨k, hi, hk, rfl⟩ _ hs h
    exact V_eat hi rfl (by simp) (by intro c; simp [consumes, hk, Option.filter]) h
  | string cs =>
    rintro a b s res ⟨hi, rfl⟩ _ hs h
    exact V_eatAll (f := .char) (fun _ => rfl) (by simp) (by intro e c; simp [consumes, Option.filter]) cs a s res hi h
  | notString cs =>
    rintro a b s res ⟨hi, rfl⟩ _ hs h
    exact V_eatAll (f := .notChar) (fun _ => rfl) (by simp) (by intro e c; simp [consumes, Option.filter]) cs a s res hi h
  | ciString cs =>
    rintro a b s res ⟨hi, rfl⟩ _ hs h
    refine V_eatAll (f := .ciChar) (fun _ => rfl) (by simp) ?_ cs a s res hi h
    intro e c
    have : ciMatch cx.lower c e = (cx.lower c == [e]) := by
      rw [Bool.eq_iff_iff, ciMatch_iff]; simp
    simp [consumes, Option.filter, this]
  | varEq i v =>
    rintro a b s res ⟨hi, rfl⟩ _ hs h
    simp only [prefs] at h
    by_cases hc : cx.env i = some v
    · simp only [hc, if_true] at h
      exact V_eps1 hi rfl (e := (a + 1, s.cap)) (by simp [epsSucc, hc]) h.single
    · simp only [hc, if_false] at h; cases h
      exact V_eps0 hi rfl (by simp [epsSucc, hc])
  | notVarEq i v =>
    rintro a b s res ⟨hi, rfl⟩ _ hs h
    simp only [prefs] at h
    by_cases hc : (cx.env i).any (· != v) = true
    · simp only [hc, if_true] at h
      exact V_eps1 hi rfl (e := (a + 1, s.cap)) (by simp only [epsSucc, hc, if_true]) h.single
    · simp only [hc, if_false, Bool.false_eq_true] at h; cases h
      exact V_eps0 hi rfl (by simp only [epsSucc, hc, if_false, Bool.false_eq_true])
  | empty => rintro a b s res rfl _ hs h; exact h.single
  | endAnchor =>
    rintro a b s res ⟨hi, rfl⟩ _ hs h
    simp only [prefs] at h
    have he := hs.end_iff
    by_cases hc : s.rest = []
    · simp only [hc, List.isEmpty_nil, if_true] at h
      exact V_eps1 hi rfl (e := (a + 1, s.cap)) (by simp [epsSucc, he.2 hc]) h.single
    · simp only [List.isEmpty_iff, hc, if_false] at h; cases h
      exact V_eps0 hi rfl (by simp [epsSucc, he, hc])
  | notEndAnchor =>
    rintro a b s res ⟨hi, rfl⟩ _ hs h
    simp only [prefs] at h
    have he := hs.end_iff
    by_cases hc : s.rest = []
    · simp only [hc, List.isEmpty_nil, if_true] at h; cases h
      exact V_eps0 hi rfl (by simp [epsSucc, he, hc])
    · simp only [List.isEmpty_iff, hc, if_false] at h
      exact V_eps1 hi rfl (e := (a + 1, s.cap)) (by simp [epsSucc, he, hc]) h.single
  | startAnchor =>
    rintro a b s res ⟨hi, rfl⟩ _ hs h
    simp only [prefs] at h
    by_cases hc : cx.atStart = true ∧ s.sp = 0
    · simp only [hc, and_self, if_true] at h
      exact V_eps1 hi rfl (e := (a + 1, s.cap)) (by simp [epsSucc, hc]) h.single
    · simp only [hc, if_false] at h; cases h
      exact V_eps0 hi rfl (by simp only [epsSucc, hc, if_false])
  | notStartAnchor =>
    rintro a b s res ⟨hi, rfl⟩ _ hs h
    simp only [prefs] at h
    by_cases hc : cx.atStart = true ∧ s.sp = 0
    · simp only [hc, and_self, if_true] at h; cases h
      exact V_eps0 hi rfl (by simp [epsSucc, hc])
    · simp only [hc, if_false] at h
      exact V_eps1 hi rfl (e := (a + 1, s.cap)) (by simp only [epsSucc, hc, not_false_eq_true, if_true]) h.single
  | never =>
    rintro a b s res ⟨hi, rfl⟩ _ hs h
    simp only [prefs] at h; cases h
    exact V_eps0 hi rfl rfl
  | group r ih => intro a b s res hf hl hs h; exact ih a b s res hf hl hs h
  | concat l r ihl ihr =>
    rintro a b s res ⟨m, h1, h2⟩ hl hs h
    exact ihl a m s res h1 hl.1 hs (FirstAt.bind (fun t ht r' hr => ihr m b t r' h2 hl.2 (hlater l s t hs ht) hr) h)
  | either l r ihl ihr =>
    rintro a b s res ⟨m, h0, h1, hj, h2⟩ hl hs h
    refine V_split h0 h (fun r' hr => ihl _ _ s r' h1 hl.1 hs ?_) (fun r' hr => ihr _ _ s r' h2 hl.2 hs hr)
    refine FirstAt.bind (f := fun t => [t]) (fun t _ r'' hr' => V_jump hj hr'.single) (by simpa using hr)
  | optional r ih =>
    rintro a b s res ⟨h0, h1⟩ hl hs h
    exact V_split h0 h (fun r' hr => ih _ _ s r' h1 hl hs hr) (fun r' hr => hr.single)
  | zeroOrMore r ih =>
    rintro a b s res ⟨m, h0, h1, hj, rfl⟩ hl hs h
    exact V_star h0 hj (fun s r' hs hr => ih _ _ s r' h1 hl.2 hs hr)
      (fun s t hs ht => ⟨hlater r s t hs ht, (prefs_later (cx := cx) r s t ht).2 hl.1⟩) _ s res rfl hs h
  | oneOrMore r ih =>
    rintro a b s res ⟨m, h1, hj, rfl⟩ hl hs h
    have main : ∀ (k : Nat) (s : St) (res), s.rest.length = k → s.Ok cx →
        FirstAt is cl cx (m + 1) ((prefs cx.lower cx.env cx.atStart r s).flatMap fun t =>
          starPrefs (prefs cx.lower cx.env cx.atStart r) t.rest.length t) res → V is cl cx (a, s) res := by
      intro k
      induction k using Nat.strongRecOn with
      | ind k IH =>
        intro s res hk hs h
        refine ih a m s res h1 hl.2 hs (FirstAt.bind (fun t ht r' hr => ?_) h)
        have hlt := (prefs_later (cx := cx) r s t ht).2 hl.1
        have htok := hlater r s t hs ht
        rw [starPrefs_eq] at hr
        refine V_split hj hr (fun r'' hr' => ?_) (fun r'' hr' => hr'.single)
        refine IH t.rest.length (by omega) t r'' rfl htok ?_
        have heq : (prefs cx.lower cx.env cx.atStart r t).flatMap (fun u =>
            if u.rest.length < t.rest.length then starPrefs (prefs cx.lower cx.env cx.atStart r) u.rest.length u else [])
            = (prefs cx.lower cx.env cx.atStart r t).flatMap (fun u =>
              starPrefs (prefs cx.lower cx.env cx.atStart r) u.rest.length u) := by
          rw [List.flatMap_def, List.flatMap_def]
          congr 1
          apply List.map_congr_left
          intro u hu
          simp [(prefs_later (cx := cx) r t u hu).2 hl.1]
        rw [heq] at hr'; exact hr'
    exact main _ s res rfl hs h
  | repeatExactly n r ih =>
    rintro a b s res hf hl hs h
    exact V_times (fun a b s r' hf hs hr => ih a b s r' hf hl hs hr) (hlater r) n a b s res hf hs h
  | repeatAtLeast n r ih =>
    rintro a b s res ⟨p, m, h1, h0, h2, hj, rfl⟩ hl hs h
    refine V_times (fun a b s r' hf hs hr => ih a b s r' hf hl.2 hs hr) (hlater r) n a p s res h1 hs
      (FirstAt.bind (fun t ht r' hr => ?_) h)
    have htok := (later_times (cx := cx) (fun s t ht => (prefs_later r s t ht).1) ht).ok hs
    exact V_star h0 hj (fun s r' hs hr => ih _ _ s r' h2 hl.2 hs hr)
      (fun s t hs ht => ⟨hlater r s t hs ht, (prefs_later (cx := cx) r s t ht).2 hl.1⟩) _ t r' rfl htok hr
  | repeatAtLeastAtMost n k r ih => intro a b s res hf hl; exact hl.elim
  | capture r ih =>
    rintro a b s res ⟨m, h0, h1, hj, rfl⟩ hl hs h
    refine V_eps1 h0 rfl (e := (a + 1, (s.sp, 0))) rfl
      (ih _ _ { s with cap := (s.sp, 0) } res h1 hl hs ?_)
    simp only [prefs] at h
    refine FirstAt.bind (f := fun t => [{ t with cap := (t.cap.1, t.sp) }]) (fun t _ r' hr => ?_) (by rw [List.map_eq_flatMap] at h; exact h)
    exact V_eps1 hj rfl (e := (m + 1, (t.cap.1, t.sp))) rfl hr.single

end Louis.Regexp
