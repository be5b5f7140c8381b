import Verif.Lemmas.Frag

/-! Paths through the code of an expression are matches of the expression. -/

namespace Louis.Regexp

/-- What the emitted code does for `{min,max}`: `min` copies, then a loop over `max - min` copies. -/
def codeRange (min max n : Nat) : Prop := ∃ k, n = min + k * (max - min)

abbrev CodeMatches (cx : Ctx) := MatchesWith codeRange cx.lower cx.env cx.atStart

/-- `sp` is the number of bytes before `rest`. -/
def St.Ok (cx : Ctx) (s : St) : Prop := s.sp + utf8Len s.rest = cx.inputLen

theorem utf8Size_pos (c : Char) : 0 < c.utf8Size := Char.utf8Size_pos c

theorem utf8Len_eq_zero {l : List Char} : utf8Len l = 0 ↔ l = [] := by
  cases l with
  | nil => simp [utf8Len]
  | cons c l => have := utf8Size_pos c; simp [utf8Len]; omega

theorem St.Ok.end_iff {cx : Ctx} {s : St} (h : s.Ok cx) : s.sp = cx.inputLen ↔ s.rest = [] := by
  unfold St.Ok at h
  rw [← utf8Len_eq_zero]; omega

theorem Step.ok {is cl cx q q'} (h : Step is cl cx q q') (hok : q.2.Ok cx) : q'.2.Ok cx := by
  cases h with
  | eps => exact hok
  | eat hi hr hc =>
    unfold St.Ok at *
    simp only [hr, utf8Len] at hok
    simp only [St.adv]; omega

theorem Path.ok {is cl cx n q q'} (h : Path is cl cx n q q') (hok : q.2.Ok cx) : q'.2.Ok cx := by
  induction h with
  | refl => exact hok
  | step h _ ih => exact ih (h.ok hok)

theorem ciMatch_iff {lower : Char → List Char} {c e : Char} : ciMatch lower c e = true ↔ lower c = [e] := by
  unfold ciMatch
  cases h : lower c with
  | nil => simp
  | cons x xs => cases xs <;> simp

theorem Iter.add {R : St → St → Prop} : ∀ {n m : Nat} {s t s' : St}, Iter R n s t → Iter R m t s' → Iter R (n + m) s s'
  | 0, m, s, t, s', h, h' => by simp [Iter] at h; subst h; simpa using h'
  | n + 1, m, s, t, s', ⟨u, hu, h⟩, h' => by
    rw [Nat.add_right_comm]; exact ⟨u, hu, Iter.add h h'⟩

theorem Iter.split {R : St → St → Prop} : ∀ {n m : Nat} {s s' : St}, Iter R (n + m) s s' →
    ∃ t, Iter R n s t ∧ Iter R m t s'
  | 0, m, s, s', h => ⟨s, rfl, by simpa using h⟩
  | n + 1, m, s, s', h => by
    rw [Nat.add_right_comm] at h
    obtain ⟨u, hu, h⟩ := h
    obtain ⟨t, h1, h2⟩ := Iter.split h
    exact ⟨t, ⟨u, hu, h1⟩, h2⟩

/-! ### Completeness: a match gives a path -/

theorem step_eat {is cl cx} {a : Nat} {i : Instr} {s s' : St} {p : Char → Prop} (hi : is[a]? = some i)
    (hc : ∀ c, p c → consumes cl cx.lower i (some c) = .ok (some c)) (h : Eats p s s') :
    Step is cl cx (a, s) (a + 1, s') := by
  obtain ⟨c, t, hr, hp, rfl⟩ := h
  exact .eat hi hr (hc c hp)

theorem path_one {is cl cx q q'} (h : Step is cl cx q q') : ∃ n, Path is cl cx n q q' := ⟨1, .step h (.refl _)⟩

theorem path_eatsAll {is cl cx} {f : Char → Instr} {p : Char → Char → Prop}
    (hc : ∀ e c, p e c → consumes cl cx.lower (f e) (some c) = .ok (some c)) :
    ∀ (es : List Char) (a : Nat) (s s' : St), (∀ j, j < es.length → is[a + j]? = (es.map f)[j]?) →
      EatsAll p es s s' → ∃ n, Path is cl cx n (a, s) (a + es.length, s') := by
  intro es
  induction es with
  | nil => intro a s s' _ h; simp [EatsAll] at h; subst h; exact ⟨0, .refl _⟩
  | cons e es ih =>
    intro a s s' hi ⟨t, h1, h2⟩
    have h0 := hi 0 (by simp)
    simp at h0
    obtain ⟨n, p⟩ := ih (a + 1) t s' (fun j hj => by
      have := hi (j + 1) (by simp; omega)
      simp only [List.map_cons, List.getElem?_cons_succ] at this
      rw [← this]; congr 1; omega) h2
    refine ⟨n + 1, .step (step_eat h0 (hc e) h1) ?_⟩
    have e1 : a + (e :: es).length = a + 1 + es.length := by simp; omega
    rw [e1]; exact p

theorem path_iter {is cl cx} {R : St → St → Prop} {F : Nat → Nat → Prop}
    (ih : ∀ a b s s', F a b → s.Ok cx → R s s' → ∃ n, Path is cl cx n (a, s) (b, s')) :
    ∀ (n a b : Nat) (s s' : St), FragN F n a b → s.Ok cx → Iter R n s s' → ∃ n, Path is cl cx n (a, s) (b, s') := by
  intro n
  induction n with
  | zero => intro a b s s' hf _ h; simp [FragN] at hf; simp [Iter] at h; subst hf h; exact ⟨0, .refl _⟩
  | succ n IH =>
    rintro a b s s' ⟨m, h1, h2⟩ hok ⟨t, h3, h4⟩
    obtain ⟨n1, p1⟩ := ih a m s t h1 hok h3
    obtain ⟨n2, p2⟩ := IH m b t s' h2 (p1.ok hok) h4
    exact ⟨_, p1.trans p2⟩

/-- A loop `p: split (p+1) b; body; jump p` realises any number of iterations. -/
theorem path_loop {is cl cx} {R : St → St → Prop} {p b m : Nat} (h0 : is[p]? = some (.split (p + 1) b))
    (hj : is[m]? = some (.jump p))
    (ih : ∀ s s', s.Ok cx → R s s' → ∃ n, Path is cl cx n (p + 1, s) (m, s')) :
    ∀ (k : Nat) (s s' : St), s.Ok cx → Iter R k s s' → ∃ n, Path is cl cx n (p, s) (b, s') := by
  intro k
  induction k with
  | zero =>
    intro s s' _ h; simp [Iter] at h; subst h
    exact path_one (Step.eps (e := (b, s'.cap)) h0 (by simp [epsSucc]))
  | succ k IH =>
    rintro s s' hok ⟨t, h1, h2⟩
    obtain ⟨n1, p1⟩ := ih s t hok h1
    obtain ⟨n2, p2⟩ := IH t s' (p1.ok hok) h2
    have s1 : Step is cl cx (p, s) (p + 1, s) := Step.eps (e := (p + 1, s.cap)) h0 (by simp [epsSucc])
    have s2 : Step is cl cx (m, t) (p, t) := Step.eps (e := (p, t.cap)) hj (by simp [epsSucc])
    exact ⟨_, .step s1 (p1.trans (.step s2 p2))⟩

theorem frag_complete {is cl cx} : ∀ (r : Regexp) (a b : Nat) (s s' : St), Frag is cl r a b → s.Ok cx →
    CodeMatches cx r s s' → ∃ n, Path is cl cx n (a, s) (b, s') := by
  intro r
  induction r with
  | literal c =>
    rintro a b s s' ⟨hi, rfl⟩ _ h
    exact path_one (step_eat hi (by rintro c rfl; simp [consumes]) h)
  | any =>
    rintro a b s s' ⟨hi, rfl⟩ _ h
    exact path_one (step_eat hi (by intro c _; simp [consumes]) h)
  | cls cs =>
    rintro a b s s' ⟨k, hi, hk, rfl⟩ _ h
    exact path_one (step_eat hi (by intro c hc; simp [consumes, hk, hc]) h)
  | notCls cs =>
    rintro a b s s' ⟨k, hi, hk, rfl⟩ _ h
    exact path_one (step_eat hi (by intro c hc; simp [consumes, hk, hc]) h)
  | string cs =>
    rintro a b s s' ⟨hi, rfl⟩ _ h
    exact path_eatsAll (by rintro e c rfl; simp [consumes]) cs a s s' hi h
  | notString cs =>
    rintro a b s s' ⟨hi, rfl⟩ _ h
    exact path_eatsAll (by intro e c hc; simp [consumes, hc]) cs a s s' hi h
  | ciString cs =>
    rintro a b s s' ⟨hi, rfl⟩ _ h
    exact path_eatsAll (by intro e c hc; simp [consumes, ciMatch_iff, hc]) cs a s s' hi h
  | varEq i v =>
    rintro a b s s' ⟨hi, rfl⟩ _ ⟨h, rfl⟩
    exact path_one (Step.eps (e := (a + 1, s'.cap)) hi (by simp [epsSucc, h]))
  | notVarEq i v =>
    rintro a b s s' ⟨hi, rfl⟩ _ ⟨⟨x, hx, hne⟩, rfl⟩
    exact path_one (Step.eps (e := (a + 1, s'.cap)) hi (by simp [epsSucc, hx, hne]))
  | empty => rintro a b s s' hf _ h; simp [Frag] at hf; simp [CodeMatches, MatchesWith] at h; subst hf h; exact ⟨0, .refl _⟩
  | endAnchor =>
    rintro a b s s' ⟨hi, rfl⟩ hok ⟨h, rfl⟩
    exact path_one (Step.eps (e := (a + 1, s'.cap)) hi (by simp [epsSucc, hok.end_iff, h]))
  | notEndAnchor =>
    rintro a b s s' ⟨hi, rfl⟩ hok ⟨h, rfl⟩
    exact path_one (Step.eps (e := (a + 1, s'.cap)) hi (by simp [epsSucc, hok.end_iff, h]))
  | startAnchor =>
    rintro a b s s' ⟨hi, rfl⟩ hok ⟨h, rfl⟩
    exact path_one (Step.eps (e := (a + 1, s'.cap)) hi (by simp [epsSucc, h]))
  | notStartAnchor =>
    rintro a b s s' ⟨hi, rfl⟩ hok ⟨h, rfl⟩
    exact path_one (Step.eps (e := (a + 1, s'.cap)) hi (by simp only [epsSucc, h]; simp))
  | never => rintro a b s s' _ _ h; exact h.elim
  | group r ih => intro a b s s' hf hok h; exact ih a b s s' hf hok h
  | concat l r ihl ihr =>
    rintro a b s s' ⟨m, h1, h2⟩ hok ⟨t, h3, h4⟩
    obtain ⟨n1, p1⟩ := ihl a m s t h1 hok h3
    obtain ⟨n2, p2⟩ := ihr m b t s' h2 (p1.ok hok) h4
    exact ⟨_, p1.trans p2⟩
  | either l r ihl ihr =>
    rintro a b s s' ⟨m, h0, h1, hj, h2⟩ hok (h | h)
    · obtain ⟨n1, p1⟩ := ihl _ _ s s' h1 hok h
      have s1 : Step is cl cx (a, s) (a + 1, s) := Step.eps (e := (a + 1, s.cap)) h0 (by simp [epsSucc])
      have s2 : Step is cl cx (m, s') (b, s') := Step.eps (e := (b, s'.cap)) hj (by simp [epsSucc])
      exact ⟨_, .step s1 (p1.trans (.step s2 (.refl _)))⟩
    · obtain ⟨n1, p1⟩ := ihr _ _ s s' h2 hok h
      have s1 : Step is cl cx (a, s) (m + 1, s) := Step.eps (e := (m + 1, s.cap)) h0 (by simp [epsSucc])
      exact ⟨_, .step s1 p1⟩
  | optional r ih =>
    rintro a b s s' ⟨h0, h1⟩ hok (rfl | h)
    · exact path_one (Step.eps (e := (b, s'.cap)) h0 (by simp [epsSucc]))
    · obtain ⟨n1, p1⟩ := ih _ _ s s' h1 hok h
      have s1 : Step is cl cx (a, s) (a + 1, s) := Step.eps (e := (a + 1, s.cap)) h0 (by simp [epsSucc])
      exact ⟨_, .step s1 p1⟩
  | zeroOrMore r ih =>
    rintro a b s s' ⟨m, h0, h1, hj, rfl⟩ hok ⟨k, h⟩
    exact path_loop h0 hj (fun s s' => ih _ _ s s' h1) k s s' hok h
  | oneOrMore r ih =>
    rintro a b s s' ⟨m, h1, hj, rfl⟩ hok ⟨k, hk, h⟩
    obtain ⟨k, rfl⟩ : ∃ j, k = j + 1 := ⟨k - 1, by omega⟩
    clear hk
    induction k generalizing s with
    | zero =>
      obtain ⟨t, h2, h3⟩ := h; simp [Iter] at h3; subst h3
      obtain ⟨n1, p1⟩ := ih _ _ s s' h1 hok h2
      have s2 : Step is cl cx (m, s') (m + 1, s') := Step.eps (e := (m + 1, s'.cap)) hj (by simp [epsSucc])
      exact ⟨_, p1.trans (.step s2 (.refl _))⟩
    | succ k IH =>
      obtain ⟨t, h2, h3⟩ := h
      obtain ⟨n1, p1⟩ := ih _ _ s t h1 hok h2
      obtain ⟨n2, p2⟩ := IH t (p1.ok hok) h3
      have s2 : Step is cl cx (m, t) (a, t) := Step.eps (e := (a, t.cap)) hj (by simp [epsSucc])
      exact ⟨_, p1.trans (.step s2 p2)⟩
  | repeatExactly n r ih =>
    rintro a b s s' hf hok h
    exact path_iter (fun a b s s' => ih a b s s') n a b s s' hf hok h
  | repeatAtLeast n r ih =>
    rintro a b s s' ⟨p, m, h1, h0, h2, hj, rfl⟩ hok ⟨k, hk, h⟩
    obtain ⟨j, rfl⟩ := Nat.exists_eq_add_of_le hk
    obtain ⟨t, h3, h4⟩ := Iter.split h
    obtain ⟨n1, p1⟩ := path_iter (fun a b s s' => ih a b s s') n a p s t h1 hok h3
    obtain ⟨n2, p2⟩ := path_loop h0 hj (fun s s' => ih _ _ s s' h2) j t s' (p1.ok hok) h4
    exact ⟨_, p1.trans p2⟩
  | repeatAtLeastAtMost n k r ih =>
    rintro a b s s' ⟨p, m, h1, h0, h2, hj, rfl⟩ hok ⟨_, ⟨j, rfl⟩, h⟩
    obtain ⟨t, h3, h4⟩ := Iter.split h
    obtain ⟨n1, p1⟩ := path_iter (fun a b s s' => ih a b s s') n a p s t h1 hok h3
    have hloop : ∀ (j : Nat) (s s' : St), Iter (CodeMatches cx r) (j * (k - n)) s s' →
        Iter (Iter (CodeMatches cx r) (k - n)) j s s' := by
      intro j
      induction j with
      | zero => intro s s' h; simpa [Iter] using h
      | succ j IH =>
        intro s s' h
        rw [Nat.succ_mul, Nat.add_comm] at h
        obtain ⟨u, h1, h2⟩ := Iter.split h
        exact ⟨u, h1, IH u s' h2⟩
    obtain ⟨n2, p2⟩ := path_loop h0 hj
      (fun s s' hok h => path_iter (fun a b s s' => ih a b s s') (k - n) _ _ s s' h2 hok h) j t s' (p1.ok hok)
      (hloop j t s' h4)
    exact ⟨_, p1.trans p2⟩
  | capture r ih =>
    rintro a b s s' ⟨m, h0, h1, hj, rfl⟩ hok ⟨t, h, rfl⟩
    obtain ⟨n1, p1⟩ := ih _ _ { s with cap := (s.sp, 0) } t h1 hok h
    have s1 : Step is cl cx (a, s) (a + 1, { s with cap := (s.sp, 0) }) :=
      Step.eps (e := (a + 1, (s.sp, 0))) h0 (by simp [epsSucc])
    have s2 : Step is cl cx (m, t) (m + 1, { t with cap := (t.cap.1, t.sp) }) :=
      Step.eps (e := (m + 1, (t.cap.1, t.sp))) hj (by simp [epsSucc])
    exact ⟨_, .step s1 (p1.trans (.step s2 (.refl _)))⟩

/-! ### Soundness: an accepting path through the code gives a match -/

/-- What is left of an accepting path after the code of an expression. -/
def Rem (is : List Instr) (cl : List (List Char)) (cx : Ctx) (R : St → St → Prop) (b n : Nat) (s : St)
    (q : Nat × St) : Prop :=
  ∃ s' m, m ≤ n ∧ R s s' ∧ s'.Ok cx ∧ Path is cl cx m (b, s') q

theorem rem_eat {is cl cx} {a n : Nat} {i : Instr} {s : St} {q : Nat × St} {idx : Nat} {P : Char → Prop}
    (hi : is[a]? = some i) (hs : i.stops = true) (hm : ∀ k, i ≠ .mtch k)
    (hc : ∀ c, consumes cl cx.lower i (some c) = .ok (some c) → P c) (hok : s.Ok cx)
    (hp : Path is cl cx n (a, s) q) (ha : Accepting is q idx) : Rem is cl cx (Eats P) (a + 1) (n - 1) s q ∧ 0 < n := by
  cases hp with
  | refl => unfold Accepting at ha; rw [hi] at ha; cases ha; exact absurd rfl (hm idx)
  | step h p =>
    have hok' := h.ok hok
    cases h with
    | eps hi' he => rw [hi] at hi'; cases hi'; rw [epsSucc_stops hs] at he; simp at he
    | eat hi' hr hcs =>
      rw [hi] at hi'; cases hi'
      exact ⟨⟨_, _, by omega, ⟨_, _, hr, hc _ hcs, rfl⟩, hok', p⟩, by omega⟩

theorem rem_eps {is cl cx} {a n : Nat} {i : Instr} {s : St} {q : Nat × St} {idx : Nat}
    (hi : is[a]? = some i) (hs : i.stops = false) (hp : Path is cl cx n (a, s) q) (ha : Accepting is q idx) :
    ∃ m e, n = m + 1 ∧ e ∈ epsSucc cx s.sp i a s.cap ∧ Path is cl cx m (e.1, { s with cap := e.2 }) q := by
  cases hp with
  | refl => unfold Accepting at ha; rw [hi] at ha; cases ha; simp [Instr.stops] at hs
  | step h p =>
    cases h with
    | eps hi' he => rw [hi] at hi'; cases hi'; exact ⟨_, _, rfl, he, p⟩
    | eat hi' hr hcs =>
      rw [hi] at hi'; cases hi'
      rw [(consumes_some hcs).2.1] at hs; cases hs

theorem rem_eatsAll {is cl cx} {f : Char → Instr} {P : Char → Char → Prop}
    (hs : ∀ e, (f e).stops = true) (hm : ∀ e k, f e ≠ .mtch k)
    (hc : ∀ e c, consumes cl cx.lower (f e) (some c) = .ok (some c) → P e c) {q : Nat × St} {idx : Nat}
    (ha : Accepting is q idx) :
    ∀ (es : List Char) (a n : Nat) (s : St), (∀ j, j < es.length → is[a + j]? = (es.map f)[j]?) → s.Ok cx →
      Path is cl cx n (a, s) q → Rem is cl cx (EatsAll P es) (a + es.length) n s q := by
  intro es
  induction es with
  | nil => intro a n s _ hok hp; exact ⟨s, n, Nat.le_refl _, rfl, hok, hp⟩
  | cons e es ih =>
    intro a n s hi hok hp
    have h0 := hi 0 (by simp)
    simp at h0
    obtain ⟨⟨t, m, hmn, he, hok', p⟩, _⟩ := rem_eat h0 (hs e) (hm e) (hc e) hok hp ha
    obtain ⟨s', m', hm', he', hok'', p'⟩ := ih (a + 1) m t (fun j hj => by
      have := hi (j + 1) (by simp; omega)
      simp only [List.map_cons, List.getElem?_cons_succ] at this
      rw [← this]; congr 1; omega) hok' p
    refine ⟨s', m', by omega, ⟨t, he, he'⟩, hok'', ?_⟩
    have e1 : a + (e :: es).length = a + 1 + es.length := by simp; omega
    rw [e1]; exact p'

theorem rem_iter {is cl cx} {R : St → St → Prop} {F : Nat → Nat → Prop} {q : Nat × St}
    (ih : ∀ a b n s, F a b → s.Ok cx → Path is cl cx n (a, s) q → Rem is cl cx R b n s q) :
    ∀ (k a b n : Nat) (s : St), FragN F k a b → s.Ok cx → Path is cl cx n (a, s) q →
      Rem is cl cx (Iter R k) b n s q := by
  intro k
  induction k with
  | zero => intro a b n s hf hok hp; simp [FragN] at hf; subst hf; exact ⟨s, n, Nat.le_refl _, rfl, hok, hp⟩
  | succ k IH =>
    rintro a b n s ⟨m, h1, h2⟩ hok hp
    obtain ⟨t, n1, hn1, hr, hok1, p1⟩ := ih a m n s h1 hok hp
    obtain ⟨s', n2, hn2, hr2, hok2, p2⟩ := IH m b n1 t h2 hok1 p1
    exact ⟨s', n2, by omega, ⟨t, hr, hr2⟩, hok2, p2⟩

theorem rem_loop {is cl cx} {R : St → St → Prop} {p b m : Nat} {q : Nat × St} {idx : Nat}
    (ha : Accepting is q idx) (h0 : is[p]? = some (.split (p + 1) b)) (hj : is[m]? = some (.jump p))
    (ih : ∀ n s, s.Ok cx → Path is cl cx n (p + 1, s) q → Rem is cl cx R m n s q) :
    ∀ (n : Nat) (s : St), s.Ok cx → Path is cl cx n (p, s) q →
      Rem is cl cx (fun s s' => ∃ k, Iter R k s s') b n s q := by
  intro n
  induction n using Nat.strongRecOn with
  | ind n IH =>
    intro s hok hp
    obtain ⟨n1, e, rfl, he, p1⟩ := rem_eps h0 rfl hp ha
    simp only [epsSucc, List.mem_cons, List.not_mem_nil, or_false] at he
    rcases he with rfl | rfl
    · obtain ⟨t, n2, hn2, hr, hok2, p2⟩ := ih n1 s hok p1
      obtain ⟨n3, e, rfl, he, p3⟩ := rem_eps hj rfl p2 ha
      simp only [epsSucc, List.mem_cons, List.not_mem_nil, or_false] at he
      subst he
      obtain ⟨s', n4, hn4, ⟨k, hk⟩, hok4, p4⟩ := IH n3 (by omega) t hok2 p3
      exact ⟨s', n4, by omega, ⟨k + 1, t, hr, hk⟩, hok4, p4⟩
    · exact ⟨s, n1, by omega, ⟨0, rfl⟩, hok, p1⟩

theorem Iter.iter_mul {R : St → St → Prop} {d : Nat} : ∀ {j : Nat} {s s' : St}, Iter (Iter R d) j s s' →
    Iter R (j * d) s s'
  | 0, s, s', h => by simpa [Iter] using h
  | j + 1, s, s', ⟨u, h1, h2⟩ => by
    rw [Nat.succ_mul, Nat.add_comm]; exact Iter.add h1 (Iter.iter_mul h2)

theorem frag_sound {is cl cx} {q : Nat × St} {idx : Nat} (ha : Accepting is q idx) :
    ∀ (r : Regexp) (a b n : Nat) (s : St), Frag is cl r a b → s.Ok cx → Path is cl cx n (a, s) q →
      Rem is cl cx (CodeMatches cx r) b n s q := by
  have weak : ∀ {R : St → St → Prop} {b n m : Nat} {s : St}, Rem is cl cx R b n s q → n ≤ m →
      Rem is cl cx R b m s q := by
    rintro R b n m s ⟨s', k, hk, r⟩ h; exact ⟨s', k, by omega, r⟩
  intro r
  induction r with
  | literal c =>
    rintro a b n s ⟨hi, rfl⟩ hok hp
    refine weak (rem_eat hi rfl (by simp) (P := (· = c)) ?_ hok hp ha).1 (by omega)
    intro d hd; simpa [consumes, Option.filter] using hd
  | any =>
    rintro a b n s ⟨hi, rfl⟩ hok hp
    exact weak (rem_eat hi rfl (by simp) (P := fun _ => True) (fun _ _ => trivial) hok hp ha).1 (by omega)
  | cls cs =>
    rintro a b n s ⟨k, hi, hk, rfl⟩ hok hp
    refine weak (rem_eat hi rfl (by simp) (P := (· ∈ cs)) ?_ hok hp ha).1 (by omega)
    intro d hd; simpa [consumes, Option.filter, hk] using hd
  | notCls cs =>
    rintro a b n s ⟨k, hi, hk, rfl⟩ hok hp
    refine weak (rem_eat hi rfl (by simp) (P := (· ∉ cs)) ?_ hok hp ha).1 (by omega)
    intro d hd; simpa [consumes, Option.filter, hk] using hd
  | string cs =>
    rintro a b n s ⟨hi, rfl⟩ hok hp
    exact rem_eatsAll (f := .char) (fun _ => rfl) (by simp)
      (by intro e c h; simpa [consumes, Option.filter] using h) ha cs a n s hi hok hp
  | notString cs =>
    rintro a b n s ⟨hi, rfl⟩ hok hp
    exact rem_eatsAll (f := .notChar) (fun _ => rfl) (by simp)
      (by intro e c h; simpa [consumes, Option.filter] using h) ha cs a n s hi hok hp
  | ciString cs =>
    rintro a b n s ⟨hi, rfl⟩ hok hp
    exact rem_eatsAll (f := .ciChar) (fun _ => rfl) (by simp)
      (by intro e c h; simpa [consumes, Option.filter, ciMatch_iff] using h) ha cs a n s hi hok hp
  | varEq i v =>
    rintro a b n s ⟨hi, rfl⟩ hok hp
    obtain ⟨m, e, rfl, he, p⟩ := rem_eps hi rfl hp ha
    simp only [epsSucc] at he
    split at he <;> simp at he
    subst he
    exact ⟨s, m, by omega, ⟨by assumption, rfl⟩, hok, p⟩
  | notVarEq i v =>
    rintro a b n s ⟨hi, rfl⟩ hok hp
    obtain ⟨m, e, rfl, he, p⟩ := rem_eps hi rfl hp ha
    simp only [epsSucc] at he
    split at he
    · rename_i h
      simp at he; subst he
      refine ⟨s, m, by omega, ⟨?_, rfl⟩, hok, p⟩
      simpa [Option.any_eq_true] using h
    · simp at he
  | empty => rintro a b n s rfl hok hp; exact ⟨s, n, Nat.le_refl _, rfl, hok, hp⟩
  | endAnchor =>
    rintro a b n s ⟨hi, rfl⟩ hok hp
    obtain ⟨m, e, rfl, he, p⟩ := rem_eps hi rfl hp ha
    simp only [epsSucc] at he
    split at he <;> simp at he
    subst he
    exact ⟨s, m, by omega, ⟨hok.end_iff.1 (by assumption), rfl⟩, hok, p⟩
  | notEndAnchor =>
    rintro a b n s ⟨hi, rfl⟩ hok hp
    obtain ⟨m, e, rfl, he, p⟩ := rem_eps hi rfl hp ha
    simp only [epsSucc] at he
    split at he
    · rename_i h
      simp at he; subst he
      exact ⟨s, m, by omega, ⟨fun h' => h (hok.end_iff.2 h'), rfl⟩, hok, p⟩
    · simp at he
  | startAnchor =>
    rintro a b n s ⟨hi, rfl⟩ hok hp
    obtain ⟨m, e, rfl, he, p⟩ := rem_eps hi rfl hp ha
    simp only [epsSucc] at he
    split at he <;> simp at he
    subst he
    exact ⟨s, m, by omega, ⟨by assumption, rfl⟩, hok, p⟩
  | notStartAnchor =>
    rintro a b n s ⟨hi, rfl⟩ hok hp
    obtain ⟨m, e, rfl, he, p⟩ := rem_eps hi rfl hp ha
    simp only [epsSucc] at he
    split at he
    · rename_i h
      simp at he; subst he
      exact ⟨s, m, by omega, ⟨h, rfl⟩, hok, p⟩
    · simp at he
  | never =>
    rintro a b n s ⟨hi, rfl⟩ hok hp
    obtain ⟨m, e, rfl, he, p⟩ := rem_eps hi rfl hp ha
    simp [epsSucc] at he
  | group r ih => intro a b n s hf hok hp; exact ih a b n s hf hok hp
  | concat l r ihl ihr =>
    rintro a b n s ⟨m, h1, h2⟩ hok hp
    obtain ⟨t, n1, hn1, hr, hok1, p1⟩ := ihl a m n s h1 hok hp
    obtain ⟨s', n2, hn2, hr2, hok2, p2⟩ := ihr m b n1 t h2 hok1 p1
    exact ⟨s', n2, by omega, ⟨t, hr, hr2⟩, hok2, p2⟩
  | either l r ihl ihr =>
    rintro a b n s ⟨m, h0, h1, hj, h2⟩ hok hp
    obtain ⟨n1, e, rfl, he, p1⟩ := rem_eps h0 rfl hp ha
    simp only [epsSucc, List.mem_cons, List.not_mem_nil, or_false] at he
    rcases he with rfl | rfl
    · obtain ⟨t, n2, hn2, hr, hok2, p2⟩ := ihl _ _ n1 s h1 hok p1
      obtain ⟨n3, e, rfl, he, p3⟩ := rem_eps hj rfl p2 ha
      simp only [epsSucc, List.mem_cons, List.not_mem_nil, or_false] at he
      subst he
      exact ⟨t, n3, by omega, Or.inl hr, hok2, p3⟩
    · obtain ⟨t, n2, hn2, hr, hok2, p2⟩ := ihr _ _ n1 s h2 hok p1
      exact ⟨t, n2, by omega, Or.inr hr, hok2, p2⟩
  | optional r ih =>
    rintro a b n s ⟨h0, h1⟩ hok hp
    obtain ⟨n1, e, rfl, he, p1⟩ := rem_eps h0 rfl hp ha
    simp only [epsSucc, List.mem_cons, List.not_mem_nil, or_false] at he
    rcases he with rfl | rfl
    · obtain ⟨t, n2, hn2, hr, hok2, p2⟩ := ih _ _ n1 s h1 hok p1
      exact ⟨t, n2, by omega, Or.inr hr, hok2, p2⟩
    · exact ⟨s, n1, by omega, Or.inl rfl, hok, p1⟩
  | zeroOrMore r ih =>
    rintro a b n s ⟨m, h0, h1, hj, rfl⟩ hok hp
    exact rem_loop ha h0 hj (fun n s => ih _ _ n s h1) n s hok hp
  | oneOrMore r ih =>
    rintro a b n s ⟨m, h1, hj, rfl⟩ hok hp
    induction n using Nat.strongRecOn generalizing s with
    | ind n IH =>
      obtain ⟨t, n1, hn1, hr, hok1, p1⟩ := ih _ _ n s h1 hok hp
      obtain ⟨n2, e, rfl, he, p2⟩ := rem_eps hj rfl p1 ha
      simp only [epsSucc, List.mem_cons, List.not_mem_nil, or_false] at he
      rcases he with rfl | rfl
      · obtain ⟨s', n3, hn3, ⟨k, hk1, hk⟩, hok3, p3⟩ := IH n2 (by omega) t hok1 p2
        exact ⟨s', n3, by omega, ⟨k + 1, by omega, t, hr, hk⟩, hok3, p3⟩
      · exact ⟨t, n2, by omega, ⟨1, by omega, t, hr, rfl⟩, hok1, p2⟩
  | repeatExactly k r ih =>
    rintro a b n s hf hok hp
    exact rem_iter (fun a b n s => ih a b n s) k a b n s hf hok hp
  | repeatAtLeast k r ih =>
    rintro a b n s ⟨p, m, h1, h0, h2, hj, rfl⟩ hok hp
    obtain ⟨t, n1, hn1, hr, hok1, p1⟩ := rem_iter (fun a b n s => ih a b n s) k a p n s h1 hok hp
    obtain ⟨s', n2, hn2, ⟨j, hj'⟩, hok2, p2⟩ := rem_loop ha h0 hj (fun n s => ih _ _ n s h2) n1 t hok1 p1
    exact ⟨s', n2, by omega, ⟨k + j, by omega, Iter.add hr hj'⟩, hok2, p2⟩
  | repeatAtLeastAtMost k l r ih =>
    rintro a b n s ⟨p, m, h1, h0, h2, hj, rfl⟩ hok hp
    obtain ⟨t, n1, hn1, hr, hok1, p1⟩ := rem_iter (fun a b n s => ih a b n s) k a p n s h1 hok hp
    obtain ⟨s', n2, hn2, ⟨j, hj'⟩, hok2, p2⟩ := rem_loop ha h0 hj
      (fun n s => rem_iter (fun a b n s => ih a b n s) (l - k) _ _ n s h2) n1 t hok1 p1
    exact ⟨s', n2, by omega, ⟨_, ⟨j, rfl⟩, Iter.add hr (Iter.iter_mul hj')⟩, hok2, p2⟩
  | capture r ih =>
    rintro a b n s ⟨m, h0, h1, hj, rfl⟩ hok hp
    obtain ⟨n1, e, rfl, he, p1⟩ := rem_eps h0 rfl hp ha
    simp only [epsSucc, List.mem_cons, List.not_mem_nil, or_false] at he
    subst he
    obtain ⟨t, n2, hn2, hr, hok2, p2⟩ := ih _ _ n1 { s with cap := (s.sp, 0) } h1 hok p1
    obtain ⟨n3, e, rfl, he, p3⟩ := rem_eps hj rfl p2 ha
    simp only [epsSucc, List.mem_cons, List.not_mem_nil, or_false] at he
    subst he
    exact ⟨_, n3, by omega, ⟨t, hr, rfl⟩, hok2, p3⟩

end Louis.Regexp
