import Verif.Lemmas.Passes
import Verif.Props.Rules

/-!
# C71: what a multipass line does at a place, exactly
-/

namespace Louis

open Regexp (findAnchored St prefs asCoded SimpleLoops utf8Len sliceBytes takeBytes dropBytes)

/-! ## Where the brackets are -/

/-- The brackets lie in what has been read. -/
structure Place.Inside (p : Place) : Prop where
  opened : p.opened <+: p.read
  closed : p.closed <+: p.read

/-- From `p` on to `q`: more has been read; the brackets are as before or they are closed. -/
structure Onward (p q : Place) : Prop where
  text : q.read ++ q.rest = p.read ++ p.rest
  more : p.read <+: q.read
  inside : p.Inside → q.Inside
  brackets : (q.opened = p.opened ∧ q.closed = p.closed) ∨ (p.Inside → q.opened <+: q.closed)

theorem Onward.refl (p : Place) : Onward p p := ⟨rfl, List.prefix_refl _, id, .inl ⟨rfl, rfl⟩⟩

theorem Onward.after (p : Place) (n : Nat) : Onward p (p.after n) := by
  refine ⟨?_, List.prefix_append .., fun h => ⟨?_, ?_⟩, .inl ⟨rfl, rfl⟩⟩
  · simp [Place.after]
  · exact h.opened.trans (List.prefix_append ..)
  · exact h.closed.trans (List.prefix_append ..)

theorem Onward.trans {p q r : Place} (h : Onward p q) (h' : Onward q r) : Onward p r := by
  refine ⟨h'.text.trans h.text, h.more.trans h'.more, fun hp => h'.inside (h.inside hp), ?_⟩
  rcases h'.brackets with ⟨e1, e2⟩ | h2
  · rcases h.brackets with ⟨e3, e4⟩ | h1
    · exact .inl ⟨e1.trans e3, e2.trans e4⟩
    · exact .inr fun hp => by rw [e1, e2]; exact h1 hp
  · exact .inr fun hp => h2 (h.inside hp)

variable {classes : CharClasses} {env : Env} {atStart : Bool}

theorem onward_not (t : TestInstr) (p q : Place) (h : q ∈ readingsNot classes env atStart t p) : Onward p q := by
  have one : ∀ {b : Bool} {x : Place}, q ∈ (if b then [x] else []) → q = x := by
    intro b x h; cases b <;> simp at h; exact h
  have one' : ∀ {b : Bool} {x : Place}, q ∈ (if b then [] else [x]) → q = x := by
    intro b x h; cases b <;> simp at h; exact h
  cases t <;> simp only [readingsNot] at h
  case lookback => cases h
  case varTest => rw [one h]; exact .refl p
  case string => rw [one h]; exact .after p _
  case dots => rw [one h]; exact .after p _
  case attributes => obtain ⟨n, -, rfl⟩ := List.mem_map.1 h; exact .after p _
  case cls => obtain ⟨n, -, rfl⟩ := List.mem_map.1 h; exact .after p _
  case negate => cases h
  case replace => cases h
  case atBeginning => rw [one' h]; exact .refl p
  case atEnd => rw [one' h]; exact .refl p

mutual
theorem onward_one : ∀ (t : TestInstr) (p q : Place), q ∈ readings classes env atStart t p → Onward p q
  | .lookback _, p, q, h => by simp only [readings, List.mem_singleton] at h; rw [h]; exact .refl p
  | .varTest _ _ _, p, q, h => by
    simp only [readings] at h
    split at h
    · rw [List.mem_singleton.1 h]; exact .refl p
    · cases h
  | .string _, p, q, h => by
    simp only [readings] at h
    split at h
    · rw [List.mem_singleton.1 h]; exact .after p _
    · cases h
  | .dots _, p, q, h => by
    simp only [readings] at h
    split at h
    · rw [List.mem_singleton.1 h]; exact .after p _
    · cases h
  | .attributes _ _, p, q, h => by simp only [readings] at h; obtain ⟨n, -, rfl⟩ := List.mem_map.1 h; exact .after p _
  | .cls _ _, p, q, h => by simp only [readings] at h; obtain ⟨n, -, rfl⟩ := List.mem_map.1 h; exact .after p _
  | .negate t, p, q, h => by simp only [readings] at h; exact onward_not t p q h
  | .replace ts, p, q, h => by
    simp only [readings] at h
    obtain ⟨u, hu, rfl⟩ := List.mem_map.1 h
    have ho := onward_all ts p.opening u hu
    have hin : p.Inside → u.Inside := fun hp => ho.inside ⟨List.prefix_refl _, List.nil_prefix⟩
    refine ⟨ho.text, ho.more, fun hp => ⟨(hin hp).opened, List.prefix_refl _⟩, .inr fun hp => (hin hp).opened⟩
  | .atBeginning, p, q, h => by
    simp only [readings] at h
    split at h
    · rw [List.mem_singleton.1 h]; exact .refl p
    · cases h
  | .atEnd, p, q, h => by
    simp only [readings] at h
    split at h
    · rw [List.mem_singleton.1 h]; exact .refl p
    · cases h
theorem onward_all : ∀ (ts : List TestInstr) (p q : Place), q ∈ readingsAll classes env atStart ts p → Onward p q
  | [], p, q, h => by simp only [readingsAll, List.mem_singleton] at h; rw [h]; exact .refl p
  | t :: ts, p, q, h => by
    simp only [readingsAll, List.mem_flatMap] at h
    obtain ⟨u, h1, h2⟩ := h
    exact (onward_one t p u h1).trans (onward_all ts u q h2)
end

/-- After a test with brackets they are closed. -/
theorem closed_all : ∀ (ts : List TestInstr), bracketed ts = true → ∀ (p q : Place), p.Inside →
    q ∈ readingsAll classes env atStart ts p → q.opened <+: q.closed
  | [], h, _, _, _, _ => by simp [bracketed] at h
  | t :: ts, h, p, q, hp, hq => by
    simp only [readingsAll, List.mem_flatMap] at hq
    obtain ⟨u, h1, h2⟩ := hq
    by_cases hts : bracketed ts = true
    · exact closed_all ts hts u q ((onward_one t p u h1).inside hp) h2
    · have ho := onward_all ts u q h2
      rcases ho.brackets with ⟨e1, e2⟩ | hb
      · rw [e1, e2]
        cases t <;> simp only [bracketed, List.any_cons, Bool.false_or] at h hts
        case replace us =>
          simp only [readings] at h1
          obtain ⟨v, hv, rfl⟩ := List.mem_map.1 h1
          exact ((onward_all us p.opening v hv).inside ⟨List.prefix_refl _, List.nil_prefix⟩).opened
        all_goals exact absurd h hts
      · exact hb ((onward_one t p u h1).inside hp)

/-- What a test reads is divided by its brackets into three stretches of the text. -/
theorem firstReading_split {test : List TestInstr} {input : Text} {p : Place}
    (h : firstReading classes env atStart test input = some p) :
    ∃ x y z, stretchOf classes env atStart test input = some ⟨x, y, z⟩ ∧ p.opened = x ∧ p.closed = x ++ y ∧
      p.read = x ++ y ++ z ∧ input = x ++ y ++ z ++ p.rest := by
  have hin : (⟨[], input, [], []⟩ : Place).Inside := ⟨List.nil_prefix, List.nil_prefix⟩
  have hm := List.mem_of_head? h
  have ho := onward_all _ _ _ hm
  have hc : p.opened <+: p.closed := by
    refine closed_all _ ?_ _ _ hin hm
    split
    · assumption
    · rfl
  obtain ⟨y, hy⟩ := hc
  obtain ⟨z, hz⟩ := (ho.inside hin).closed
  refine ⟨p.opened, y, z, ?_, rfl, hy.symm, by rw [hy, hz], ?_⟩
  · simp only [stretchOf, h, Option.map_some, Option.some.injEq]
    rw [← hz, ← hy]
    simp
  · rw [hy, hz]; exact ho.text.symm

theorem stretchOf_split {test : List TestInstr} {input x y z : Text}
    (h : stretchOf classes env atStart test input = some ⟨x, y, z⟩) : ∃ rest, input = x ++ y ++ z ++ rest := by
  cases hf : firstReading classes env atStart test input with
  | none => simp [stretchOf, hf] at h
  | some p =>
    obtain ⟨x', y', z', h1, -, -, -, h2⟩ := firstReading_split hf
    rw [h] at h1
    cases h1
    exact ⟨_, h2⟩

/-- **C71.** What a line does where its reading starts.  The test reads the text in the preferred way, if at all: every
instruction after the other, every run of characters as long as possible, and shorter only if the rest of the test cannot be
read otherwise.  The line then replaces what is bracketed by what its actions write, weighs as much as all it has read, and
asks for the updates of its actions. -/
theorem C71_line_exact (classes : CharClasses) (swaps : SwapClasses) (stage : Stage) (prec : Prec) (origin : Origin)
    (test : List TestInstr) (action : List ActionInstr) (p : Regexp.Compiled Translation)
    (hc : compilePattern classes swaps stage prec origin test action = .ok p) (hw : TestsWritten test) (ha : NoStep action)
    (lower : Char → List Char) (input : Text) (env : Env) (atStart : Bool) :
    match stretchOf classes env atStart test input with
    | none => findAnchored p lower input env atStart = .ok none
    | some ⟨x, y, z⟩ => ∃ f out es, findAnchored p lower input env atStart = .ok (some f) ∧ Writes swaps y action out ∧
        Asks action es ∧ f.payload.resolve f.capture f.length f.offset =
          { input := y, output := out, length := y.length, weight := (x ++ y ++ z).length, offset := x.length, prec, stage,
            effects := es, origin := some origin } := by
  unfold compilePattern at hc
  split at hc
  · cases hc
  · next targets htargets =>
    split at hc
    · cases hc
    · next r hr =>
      simp only [Except.ok.injEq] at hc
      subst hc
      have e : addImplicitReplace test = if bracketed test then test else [.replace test] := rfl
      rw [e] at hr
      have hw' : TestsWritten (if bracketed test then test else [.replace test]) := by
        split
        · exact hw
        · simpa only [TestsWritten, TestInstr.Written, and_true] using hw
      obtain ⟨hl, hp⟩ := instrs_readings (lower := lower) (env := env) (atStart := atStart) _ hw' r hr
      have hp0 := hp ⟨[], input, [], []⟩
      have hst : (⟨[], input, [], []⟩ : Place).st = St.init input := rfl
      rw [hst] at hp0
      have h3 := Regexp.C03_leftmost_first_partial (asCoded r) hl
        (Translation.unresolved ⟨targets, prec, stage, effectsOf action, some origin⟩) lower input env atStart
      rw [Regexp.compile_asCoded, hp0, List.head?_map] at h3
      cases hf : firstReading classes env atStart test input with
      | none =>
        have : stretchOf classes env atStart test input = none := by simp [stretchOf, hf]
        rw [this]
        unfold firstReading at hf
        rw [hf] at h3
        exact h3
      | some q =>
        obtain ⟨x, y, z, h1, e1, e2, e3, e4⟩ := firstReading_split hf
        rw [h1]
        unfold firstReading at hf
        rw [hf] at h3
        obtain ⟨f, hfa, g1, g2, g3⟩ := h3
        obtain ⟨res, e', -, hsd⟩ := Regexp.findAnchored_spec r
          (Translation.unresolved ⟨targets, prec, stage, effectsOf action, some origin⟩) lower input env atStart
        rw [hfa] at e'
        cases e'
        obtain ⟨_, _, _, _, _, _, _, _, _, _, hpay⟩ := hsd f rfl
        refine ⟨f, _, _, hfa, writes_targets y htargets, asks_effects ha, ?_⟩
        have c1 : q.st.cap.1 = utf8Len x := by simp [Place.st, e1]
        have c2 : q.st.cap.2 = utf8Len (x ++ y) := by simp [Place.st, e2]
        rw [c1, c2, e4] at g2
        rw [c1, e4, show x ++ y ++ z ++ q.rest = x ++ (y ++ z ++ q.rest) by simp, Regexp.takeBytes_append] at g3
        have hcap : f.capture = y := by
          rw [sliceBytes, Regexp.utf8Len_append, if_pos (Nat.le_add_right _ _), Nat.add_sub_cancel_left,
            show x ++ y ++ z ++ q.rest = x ++ (y ++ (z ++ q.rest)) by simp, Regexp.dropBytes_append, Option.bind_some,
            Regexp.takeBytes_append] at g2
          simpa using g2.symm
        have hoff : f.offset = x.length := by simpa using g3.symm
        have hlen : f.length = (x ++ y ++ z).length := by
          rw [e4] at g1
          simp only [Place.st, List.length_append] at g1 ⊢
          omega
        rw [hpay, hcap, hoff, hlen]
        rfl

end Louis
