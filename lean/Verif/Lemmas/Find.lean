import Verif.Lemmas.Compile

/-! Well-formedness of compiled programs, captures, and the top-level `findAnchored`. -/

namespace Louis.Regexp

/-- Instructions of a code fragment only jump inside it. -/
def InB (cl : List (List Char)) (a b : Nat) : Instr → Prop
  | .jump t => a ≤ t ∧ t ≤ b
  | .split x y => (a ≤ x ∧ x ≤ b) ∧ (a ≤ y ∧ y ≤ b)
  | .cls k => k < cl.length
  | .notCls k => k < cl.length
  | .mtch _ => False
  | _ => True

theorem InB.mono {cl a b a' b' i} (h : InB cl a b i) (h1 : a' ≤ a) (h2 : b ≤ b') : InB cl a' b' i := by
  cases i <;> simp_all [InB] <;> omega

def Bounded (is : List Instr) (cl : List (List Char)) (a b lo hi : Nat) : Prop :=
  ∀ pc i, a ≤ pc → pc < b → is[pc]? = some i → InB cl lo hi i

theorem Bounded.one {is : List Instr} {cl a lo hi} {i : Instr} (hai : is[a]? = some i) (h : InB cl lo hi i) :
    Bounded is cl a (a + 1) lo hi := by
  intro pc j h1 h2 hj
  obtain rfl : pc = a := by omega
  rw [hai] at hj; cases hj; exact h

theorem Bounded.app {is cl a m b lo hi} (h : Bounded is cl a m lo hi) (h' : Bounded is cl m b lo hi) :
    Bounded is cl a b lo hi := by
  intro pc i h1 h2 hi
  rcases Nat.lt_or_ge pc m with hm | hm
  · exact h pc i h1 hm hi
  · exact h' pc i hm h2 hi

theorem Bounded.mono {is cl a b lo hi lo' hi'} (h : Bounded is cl a b lo hi) (h1 : lo' ≤ lo) (h2 : hi ≤ hi') :
    Bounded is cl a b lo' hi' := fun pc i ha hb hi => (h pc i ha hb hi).mono h1 h2

theorem Bounded.nil {is cl a lo hi} : Bounded is cl a a lo hi := by intro pc i h1 h2; omega

theorem FragN.bounded {is cl} {F : Nat → Nat → Prop} (hle : ∀ a b, F a b → a ≤ b)
    (ih : ∀ a b, F a b → Bounded is cl a b a b) : ∀ {n a b}, FragN F n a b → Bounded is cl a b a b
  | 0, a, b, h => by simp [FragN] at h; subst h; exact Bounded.nil
  | n + 1, a, b, ⟨m, h1, h2⟩ => by
    have := hle _ _ h1; have := FragN.le hle h2
    exact ((ih _ _ h1).mono (Nat.le_refl _) this).app ((FragN.bounded hle ih h2).mono (by omega) (Nat.le_refl _))

theorem bounded_chars {is : List Instr} {cl} {f : Char → Instr} {s : List Char} {a lo hi : Nat}
    (h : ∀ j, j < s.length → is[a + j]? = (s.map f)[j]?) (hf : ∀ c, InB cl lo hi (f c)) :
    Bounded is cl a (a + s.length) lo hi := by
  intro pc i h1 h2 hi
  have := h (pc - a) (by omega)
  rw [show a + (pc - a) = pc by omega, hi, List.getElem?_map] at this
  cases hs : s[pc - a]? with
  | none => simp [hs] at this
  | some c => simp [hs] at this; subst this; exact hf c

theorem frag_bounded {is cl} : ∀ {r : Regexp} {a b : Nat}, Frag is cl r a b → Bounded is cl a b a b := by
  have lt_of : ∀ {cl : List (List Char)} {k cs}, cl[k]? = some cs → k < cl.length := by
    intro cl k cs h
    rcases Nat.lt_or_ge k cl.length with h' | h'
    · exact h'
    · rw [List.getElem?_eq_none h'] at h; cases h
  intro r
  induction r with
  | concat l r ihl ihr =>
    rintro a b ⟨m, h1, h2⟩
    exact ((ihl h1).mono (Nat.le_refl _) h2.le).app ((ihr h2).mono h1.le (Nat.le_refl _))
  | either l r ihl ihr =>
    rintro a b ⟨m, h0, h1, hj, h2⟩
    have := h1.le; have := h2.le
    exact ((Bounded.one h0 (by simp [InB]; omega)).app ((ihl h1).mono (by omega) (by omega))).app
      ((Bounded.one hj (by simp [InB]; omega)).app ((ihr h2).mono (by omega) (by omega)))
  | optional r ih =>
    rintro a b ⟨h0, h1⟩
    have := h1.le
    exact (Bounded.one h0 (by simp [InB]; omega)).app ((ih h1).mono (by omega) (by omega))
  | zeroOrMore r ih =>
    rintro a b ⟨m, h0, h1, hj, rfl⟩
    have := h1.le
    exact ((Bounded.one h0 (by simp [InB]; omega)).app ((ih h1).mono (by omega) (by omega))).app
      (Bounded.one hj (by simp [InB]; omega))
  | oneOrMore r ih =>
    rintro a b ⟨m, h1, hj, rfl⟩
    have := h1.le
    exact ((ih h1).mono (by omega) (by omega)).app (Bounded.one hj (by simp [InB]; omega))
  | repeatExactly n r ih => rintro a b h; exact FragN.bounded (fun _ _ => Frag.le) (fun _ _ => ih) h
  | repeatAtLeast n r ih =>
    rintro a b ⟨p, m, h1, h0, h2, hj, rfl⟩
    have := FragN.le (fun _ _ => Frag.le) h1; have := h2.le
    exact ((FragN.bounded (fun _ _ => Frag.le) (fun _ _ => ih) h1).mono (by omega) (by omega)).app
      (((Bounded.one h0 (by simp [InB]; omega)).app ((ih h2).mono (by omega) (by omega))).app
      (Bounded.one hj (by simp [InB]; omega)))
  | repeatAtLeastAtMost n k r ih =>
    rintro a b ⟨p, m, h1, h0, h2, hj, rfl⟩
    have := FragN.le (fun _ _ => Frag.le) h1; have := FragN.le (fun _ _ => Frag.le) h2
    exact ((FragN.bounded (fun _ _ => Frag.le) (fun _ _ => ih) h1).mono (by omega) (by omega)).app
      (((Bounded.one h0 (by simp [InB]; omega)).app
        ((FragN.bounded (fun _ _ => Frag.le) (fun _ _ => ih) h2).mono (by omega) (by omega))).app
      (Bounded.one hj (by simp [InB]; omega)))
  | capture r ih =>
    rintro a b ⟨m, h0, h1, hj, rfl⟩
    have := h1.le
    exact ((Bounded.one h0 (by simp [InB])).app ((ih h1).mono (by omega) (by omega))).app
      (Bounded.one hj (by simp [InB]))
  | group r ih => intro a b h; exact ih h
  | cls cs => rintro a b ⟨k, h0, hk, rfl⟩; exact Bounded.one h0 (lt_of hk)
  | notCls cs => rintro a b ⟨k, h0, hk, rfl⟩; exact Bounded.one h0 (lt_of hk)
  | empty => rintro a b rfl; exact Bounded.nil
  | string s => rintro a b ⟨h, rfl⟩; exact bounded_chars h (by simp [InB])
  | notString s => rintro a b ⟨h, rfl⟩; exact bounded_chars h (by simp [InB])
  | ciString s => rintro a b ⟨h, rfl⟩; exact bounded_chars h (by simp [InB])
  | _ => rintro a b ⟨h0, rfl⟩; exact Bounded.one h0 (by simp [InB])

/-- The compiled program: the code of the expression followed by `Match`. -/
theorem compile_frag {τ : Type} (r : Regexp) (payload : τ) :
    ∃ b, Frag (compile r payload).instrs (compile r payload).classes r 0 b ∧
      (compile r payload).instrs.length = b + 1 ∧ (compile r payload).instrs[b]? = some (.mtch 0) := by
  obtain ⟨a, f⟩ := emit_spec r ⟨[], []⟩
  refine ⟨(emit r ⟨[], []⟩).instrs.length, ?_, by simp [compile], by simp [compile]⟩
  refine f.agree ⟨fun i _ hi => ?_, fun _ _ h => h⟩
  simp [compile, List.getElem?_append_left hi]

theorem compile_wf {τ : Type} (r : Regexp) (payload : τ) :
    WF (compile r payload).instrs (compile r payload).classes (compile r payload).translations.length := by
  obtain ⟨b, hf, hlen, hm⟩ := compile_frag r payload
  have hb := frag_bounded hf
  have hpc : ∀ (pc : Nat) (i : Instr), (compile r payload).instrs[pc]? = some i →
      (pc < b ∧ InB (compile r payload).classes 0 b i) ∨ (pc = b ∧ i = .mtch 0) := by
    intro pc i hi
    have : pc < b + 1 := by
      rcases Nat.lt_or_ge pc (b + 1) with h | h
      · exact h
      · rw [List.getElem?_eq_none (by omega)] at hi; cases hi
    rcases Nat.lt_or_ge pc b with h | h
    · exact Or.inl ⟨h, hb pc i (by omega) h hi⟩
    · obtain rfl : pc = b := by omega
      rw [hm] at hi; cases hi; exact Or.inr ⟨rfl, rfl⟩
  constructor
  · intro pc i hi cx sp cap e he
    rcases hpc pc i hi with ⟨h, hin⟩ | ⟨_, rfl⟩
    · rw [hlen]
      cases i <;> simp only [epsSucc] at he <;> (try split at he) <;> simp_all [InB]
      all_goals (first | (subst he; simp; omega) | skip)
      all_goals (first | omega | skip)
      rcases he with rfl | rfl <;> simp <;> omega
    · simp [epsSucc] at he
  · intro pc i hi hs hnm
    rcases hpc pc i hi with ⟨h, _⟩ | ⟨_, rfl⟩
    · omega
    · exact absurd rfl (hnm 0)
  · intro pc k hi
    rcases hi with hi | hi
    · rcases hpc pc _ hi with ⟨_, h⟩ | ⟨_, h⟩
      · exact h
      · cases h
    · rcases hpc pc _ hi with ⟨_, h⟩ | ⟨_, h⟩
      · exact h
      · cases h
  · intro pc k hi
    rcases hpc pc _ hi with ⟨_, h⟩ | ⟨_, h⟩
    · exact h.elim
    · cases h; simp [compile]
  · omega

/-! ### Captures -/

/-- `n` is the byte position of a character boundary of `input`. -/
def Bd (input : List Char) (n : Nat) : Prop := ∃ pre post, input = pre ++ post ∧ utf8Len pre = n

theorem utf8Len_append (a b : List Char) : utf8Len (a ++ b) = utf8Len a + utf8Len b := by
  induction a with
  | nil => simp [utf8Len]
  | cons c a ih => simp [utf8Len, ih]; omega

def PosOk (input : List Char) (s : St) : Prop := ∃ pre, input = pre ++ s.rest ∧ s.sp = utf8Len pre

theorem PosOk.bd {input s} (h : PosOk input s) : Bd input s.sp := by
  obtain ⟨pre, h1, h2⟩ := h; exact ⟨pre, s.rest, h1, h2.symm⟩

def CapStart (input : List Char) (s : St) : Prop := Bd input s.cap.1 ∧ s.cap.1 ≤ s.sp

def CapOk (input : List Char) (s : St) : Prop :=
  Bd input s.cap.1 ∧ Bd input s.cap.2 ∧ s.cap.1 ≤ s.cap.2 ∧ s.cap.2 ≤ s.sp

/-- What any match preserves. -/
def Preserves (input : List Char) (s s' : St) : Prop :=
  PosOk input s → PosOk input s' ∧ s.sp ≤ s'.sp ∧ (CapStart input s → CapStart input s') ∧
    (CapOk input s → CapOk input s')

theorem Preserves.refl (input s) : Preserves input s s := fun h => ⟨h, Nat.le_refl _, fun h => h, fun h => h⟩

theorem Preserves.trans {input s t u} (h : Preserves input s t) (h' : Preserves input t u) : Preserves input s u := by
  intro hp
  obtain ⟨a1, a2, a3, a4⟩ := h hp
  obtain ⟨b1, b2, b3, b4⟩ := h' a1
  exact ⟨b1, by omega, fun x => b3 (a3 x), fun x => b4 (a4 x)⟩

theorem Preserves.eats {input P s s'} (h : Eats P s s') : Preserves input s s' := by
  obtain ⟨c, t, hr, _, rfl⟩ := h
  rintro ⟨pre, h1, h2⟩
  refine ⟨⟨pre ++ [c], by simp [h1, hr, St.adv], by simp [St.adv, utf8Len_append, utf8Len, h2]⟩, by simp [St.adv], ?_, ?_⟩
  · rintro ⟨a, b⟩; exact ⟨a, by simp [St.adv]; omega⟩
  · rintro ⟨a, b, c', d⟩; exact ⟨a, b, c', by simp [St.adv]; omega⟩

theorem Preserves.eatsAll {input P} : ∀ {es s s'}, EatsAll P es s s' → Preserves input s s'
  | [], s, s', h => by simp [EatsAll] at h; subst h; exact .refl _ _
  | e :: es, s, s', ⟨t, h1, h2⟩ => (Preserves.eats h1).trans (Preserves.eatsAll h2)

theorem Preserves.iter {input} {R : St → St → Prop} (h : ∀ s s', R s s' → Preserves input s s') :
    ∀ {n s s'}, Iter R n s s' → Preserves input s s'
  | 0, s, s', hi => by simp [Iter] at hi; subst hi; exact .refl _ _
  | n + 1, s, s', ⟨t, h1, h2⟩ => (h _ _ h1).trans (Preserves.iter h h2)

theorem matches_preserves {rng lower env atStart input} : ∀ (r : Regexp) (s s' : St),
    MatchesWith rng lower env atStart r s s' → Preserves input s s' := by
  intro r
  induction r with
  | literal c => intro s s' h; exact .eats h
  | any => intro s s' h; exact .eats h
  | cls c => intro s s' h; exact .eats h
  | notCls c => intro s s' h; exact .eats h
  | string c => intro s s' h; exact .eatsAll h
  | notString c => intro s s' h; exact .eatsAll h
  | ciString c => intro s s' h; exact .eatsAll h
  | concat l r ihl ihr => rintro s s' ⟨t, h1, h2⟩; exact (ihl _ _ h1).trans (ihr _ _ h2)
  | either l r ihl ihr => exact fun s s' h => h.elim (ihl s s') (ihr s s')
  | optional r ih => exact fun s s' h => h.elim (fun e => e ▸ .refl _ _) (ih s s')
  | zeroOrMore r ih => rintro s s' ⟨n, h⟩; exact .iter ih h
  | oneOrMore r ih => rintro s s' ⟨n, _, h⟩; exact .iter ih h
  | repeatExactly n r ih => rintro s s' h; exact .iter ih h
  | repeatAtLeast n r ih => rintro s s' ⟨k, _, h⟩; exact .iter ih h
  | repeatAtLeastAtMost n m r ih => rintro s s' ⟨k, _, h⟩; exact .iter ih h
  | group r ih => intro s s' h; exact ih s s' h
  | capture r ih =>
    rintro s s' ⟨t, h, rfl⟩ hp
    obtain ⟨a1, a2, a3, _⟩ := ih _ _ h hp
    obtain ⟨b1, b2⟩ := a3 ⟨hp.bd, Nat.le_refl _⟩
    exact ⟨a1, a2, fun _ => ⟨b1, b2⟩, fun _ => ⟨b1, PosOk.bd a1, b2, Nat.le_refl _⟩⟩
  | empty => rintro s s' rfl; exact .refl _ _
  | never => intro s s' h; exact h.elim
  | _ => rintro s s' ⟨_, rfl⟩; exact .refl _ _

theorem takeBytes_append (a b : List Char) : takeBytes (a ++ b) (utf8Len a) = some a := by
  induction a with
  | nil => cases b <;> simp [utf8Len, takeBytes]
  | cons c a ih =>
    obtain ⟨n, hn⟩ : ∃ n, utf8Len (c :: a) = n + 1 := ⟨utf8Len (c :: a) - 1, by
      have := utf8Size_pos c; simp [utf8Len]; omega⟩
    rw [hn, List.cons_append, takeBytes]
    simp only [utf8Len] at hn
    have h1 : c.utf8Size ≤ n + 1 := by omega
    have h2 : n + 1 - c.utf8Size = utf8Len a := by omega
    simp [h1, h2, ih]

theorem dropBytes_append (a b : List Char) : dropBytes (a ++ b) (utf8Len a) = some b := by
  induction a with
  | nil => cases b <;> simp [utf8Len, dropBytes]
  | cons c a ih =>
    obtain ⟨n, hn⟩ : ∃ n, utf8Len (c :: a) = n + 1 := ⟨utf8Len (c :: a) - 1, by
      have := utf8Size_pos c; simp [utf8Len]; omega⟩
    rw [hn, List.cons_append, dropBytes]
    simp only [utf8Len] at hn
    have h1 : c.utf8Size ≤ n + 1 := by omega
    have h2 : n + 1 - c.utf8Size = utf8Len a := by omega
    simp [h1, h2, ih]

/-- Two prefixes are ordered by their byte length. -/
theorem prefix_of_le {a b c d : List Char} (h : a ++ b = c ++ d) (hl : utf8Len a ≤ utf8Len c) :
    ∃ m, c = a ++ m := by
  induction a generalizing c with
  | nil => exact ⟨c, rfl⟩
  | cons x a ih =>
    cases c with
    | nil => have := utf8Size_pos x; simp [utf8Len] at hl; omega
    | cons y c =>
      simp only [List.cons_append, List.cons.injEq] at h
      obtain ⟨rfl, h⟩ := h
      obtain ⟨m, rfl⟩ := ih h (by simp [utf8Len] at hl; omega)
      exact ⟨m, rfl⟩

/-- The complete behaviour of `find_anchored` on a compiled pattern. -/
theorem findAnchored_spec {τ : Type} (r : Regexp) (payload : τ) (lower : Char → List Char) (input : List Char)
    (env : Nat → Option Nat) (atStart : Bool) :
    ∃ res, findAnchored (compile r payload) lower input env atStart = .ok res ∧
      ((∃ s', MatchesWith codeRange lower env atStart r (St.init input) s') → res.isSome) ∧
      ∀ f, res = some f → ∃ s' before after consumed,
        MatchesWith codeRange lower env atStart r (St.init input) s' ∧
        input = consumed ++ s'.rest ∧ f.length = consumed.length ∧
        consumed = before ++ f.capture ++ after ∧ f.offset = before.length ∧
        s'.cap = (utf8Len before, utf8Len (before ++ f.capture)) ∧ f.payload = payload := by
  obtain ⟨b, hf, hlen, hmt⟩ := compile_frag r payload
  have wf := compile_wf r payload
  generalize hP : compile r payload = P at *
  have htr : P.translations = [payload] := by rw [← hP]; rfl
  unfold findAnchored
  generalize hcx : (⟨lower, env, atStart, utf8Len input⟩ : Ctx) = cx
  obtain ⟨cur, e1, p1⟩ := addThread_post wf cx 0 (P.instrs.length + 1) (ThreadList.new P.instrs.length).startStep 0 (0, 0)
    (by omega) (Bitset.covers_clear (Bitset.covers_new _)) (unseen_lt _ _)
  have hst : Stopped P.instrs cur.threads := p1.stopped (by intro t ht; simp [ThreadList.startStep] at ht)
  have hcl : Closed P.instrs cx 0 cur := p1.closed' (closed_clear _ _ _ _)
  obtain ⟨m, e2, _, g2, g3⟩ := runLoop_spec (cx := cx) wf input 0 0 cur (ThreadList.new P.instrs.length) none hst
    p1.covers (Bitset.covers_new _)
  have hok0 : (St.init input).Ok cx := by rw [← hcx]; simp [St.Ok, St.init]
  have hcm : ∀ s s', MatchesWith codeRange lower env atStart r s s' ↔ CodeMatches cx r s s' := by
    intro s s'; rw [← hcx]
  simp only [e1, e2]
  -- a match exists as soon as the language is inhabited
  have hcomp : (∃ s', MatchesWith codeRange lower env atStart r (St.init input) s') → m.isSome := by
    rintro ⟨s', hs'⟩
    rw [hcm] at hs'
    obtain ⟨n, p⟩ := frag_complete r 0 b (St.init input) s' hf hok0 hs'
    exact g2 (closed_accepts hcl n 0 (0, 0) (b, s') 0 (p1.seen (0, (0, 0)) (by simp)) p hmt)
  rcases g3 with rfl | ⟨t, ht, n, q, idx, tl, hp, ha, hin, rfl⟩
  · refine ⟨none, rfl, fun h => by simpa using hcomp h, by simp⟩
  · obtain ⟨new, htn, hreach, _⟩ := p1.new
    rw [htn] at ht
    simp [ThreadList.startStep] at ht
    obtain ⟨_, _, _, q0, hq0, hr0⟩ := hreach t ht
    simp at hq0; subst hq0
    obtain ⟨n0, p0⟩ := EpsReach.path (classes := P.classes) hr0 input
    obtain ⟨s', m', _, hM, hok', p'⟩ := frag_sound ha r 0 b (n0 + n) (St.init input) hf hok0 (p0.trans hp)
    -- the rest of the path is empty: `b` is the `Match` instruction
    have hq : q = (b, s') := by
      cases p' with
      | refl => rfl
      | step h _ =>
        cases h with
        | eps hi he => rw [hmt] at hi; cases hi; simp [epsSucc] at he
        | eat hi _ hc => rw [hmt] at hi; cases hi; simp [consumes] at hc
    subst hq
    rw [← hcm] at hM
    obtain ⟨⟨pre, hpre, hsp⟩, _, _, hcap⟩ := matches_preserves (input := input) r _ _ hM ⟨[], by simp [St.init], rfl⟩
    obtain ⟨⟨x1, y1, hx1, hl1⟩, ⟨x2, y2, hx2, hl2⟩, hle, hle2⟩ := hcap
      ⟨⟨[], input, rfl, rfl⟩, ⟨[], input, rfl, rfl⟩, by simp [St.init], by simp [St.init]⟩
    have hidx : idx = 0 := by
      have := ha; unfold Accepting at this; rw [hmt] at this; cases this; rfl
    subst hidx
    simp only at hin
    obtain rfl : pre = tl := List.append_cancel_right (by rw [← hpre]; exact hin)
    obtain ⟨c, hc⟩ := prefix_of_le (a := x1) (c := x2) (by rw [← hx1, hx2]) (by omega)
    obtain ⟨after, haft⟩ := prefix_of_le (a := x2) (c := pre) (by rw [← hx2, hpre]) (by omega)
    have hs1 : sliceBytes input s'.cap.1 s'.cap.2 = some c := by
      unfold sliceBytes
      simp only [hle, if_true]
      conv => lhs; arg 1; rw [hx1, ← hl1, dropBytes_append]
      simp only [Option.bind_some]
      have hy : y1 = c ++ y2 := by
        have := hx1.symm.trans hx2
        rw [hc, List.append_assoc] at this
        exact List.append_cancel_left this
      have : s'.cap.2 - s'.cap.1 = utf8Len c := by rw [← hl1, ← hl2, hc, utf8Len_append]; omega
      rw [hy, this, takeBytes_append]
    have hs2 : takeBytes input s'.cap.1 = some x1 := by
      conv => lhs; rw [hx1, ← hl1, takeBytes_append]
    refine ⟨some ⟨c, 0 + pre.length, x1.length, payload⟩, ?_, by simp, ?_⟩
    · simp [hs1, hs2, htr]
    · intro f hf'
      cases hf'
      refine ⟨s', x1, after, pre, hM, hpre, by simp, by rw [haft, hc], rfl, ?_, rfl⟩
      simp only; rw [← hc, hl1, hl2]

end Louis.Regexp
