import Verif.Spec.Rules
import Verif.Props.Regexp
import Verif.Props.Multipass

namespace Louis

open Regexp (MatchesWith St Eats EatsAll Iter utf8Len Regexp findAnchored Found codeRange utf8Len_append utf8Len_eq_zero)

/-- The state reached by reading `m`. -/
def Moves (s s' : St) (m : Text) : Prop := s.rest = m ++ s'.rest ∧ s'.sp = s.sp + utf8Len m ∧ s'.cap = s.cap

/-- A relation between states is described by a reading. -/
def Describes (M : St → St → Prop) (R : Reading) : Prop :=
  ∀ pre s s', utf8Len pre = s.sp → (M s s' ↔ ∃ m, Moves s s' m ∧ R pre m s'.rest)

theorem moves_nil {s s' : St} : Moves s s' [] ↔ s' = s := by
  unfold Moves
  constructor
  · rintro ⟨h1, h2, h3⟩
    cases s; cases s'
    simp_all [Regexp.utf8Len]
  · rintro rfl; simp [Regexp.utf8Len]

theorem moves_append {s t s' : St} {a b : Text} (h1 : Moves s t a) (h2 : Moves t s' b) : Moves s s' (a ++ b) := by
  obtain ⟨a1, a2, a3⟩ := h1
  obtain ⟨b1, b2, b3⟩ := h2
  refine ⟨by rw [a1, b1, List.append_assoc], ?_, by rw [b3, a3]⟩
  rw [b2, a2, utf8Len_append]; omega

theorem moves_split {s s' : St} {a b : Text} (h : Moves s s' (a ++ b)) : ∃ t, Moves s t a ∧ Moves t s' b := by
  obtain ⟨h1, h2, h3⟩ := h
  refine ⟨⟨s.sp + utf8Len a, b ++ s'.rest, s.cap⟩, ⟨by rw [h1, List.append_assoc], rfl, rfl⟩, ⟨rfl, ?_, h3⟩⟩
  rw [h2, utf8Len_append]; simp; omega

theorem moves_pre {s s' : St} {pre m : Text} (hp : utf8Len pre = s.sp) (h : Moves s s' m) : utf8Len (pre ++ m) = s'.sp := by
  rw [utf8Len_append, hp, h.2.1]

theorem describes_eats (p : Char → Prop) : Describes (Eats p) (.one p) := by
  intro pre s s' _
  constructor
  · rintro ⟨c, t, h1, h2, rfl⟩
    exact ⟨[c], ⟨by simp [h1, St.adv], by simp [St.adv, Regexp.utf8Len], rfl⟩, c, rfl, h2⟩
  · rintro ⟨m, ⟨h1, h2, h3⟩, c, rfl, h4⟩
    refine ⟨c, s'.rest, by simpa using h1, h4, ?_⟩
    cases s'; simp_all [St.adv, Regexp.utf8Len]

theorem describes_here {M : St → St → Prop} {C : St → Prop} {p : Text → Text → Prop} (hM : ∀ s s', M s s' ↔ C s ∧ s' = s)
    (h : ∀ pre s, utf8Len pre = s.sp → (C s ↔ p pre s.rest)) : Describes M (.here p) := by
  intro pre s s' hp
  rw [hM]
  constructor
  · rintro ⟨h1, rfl⟩
    exact ⟨[], moves_nil.2 rfl, rfl, (h pre s' hp).1 h1⟩
  · rintro ⟨m, h1, rfl, h2⟩
    rw [moves_nil] at h1
    subst h1
    exact ⟨(h pre s' hp).2 h2, rfl⟩

theorem describes_seq {M N : St → St → Prop} {R S : Reading} (hM : Describes M R) (hN : Describes N S) :
    Describes (fun s s' => ∃ t, M s t ∧ N t s') (.seq R S) := by
  intro pre s s' hp
  constructor
  · rintro ⟨t, h1, h2⟩
    obtain ⟨a, ha, hR⟩ := (hM pre s t hp).1 h1
    obtain ⟨b, hb, hS⟩ := (hN (pre ++ a) t s' (moves_pre hp ha)).1 h2
    exact ⟨a ++ b, moves_append ha hb, a, b, rfl, by rw [← hb.1]; exact hR, hS⟩
  · rintro ⟨_, hm, a, b, rfl, hR, hS⟩
    obtain ⟨t, ha, hb⟩ := moves_split hm
    refine ⟨t, (hM pre s t hp).2 ⟨a, ha, by rw [hb.1]; exact hR⟩, (hN (pre ++ a) t s' (moves_pre hp ha)).2 ⟨b, hb, hS⟩⟩

theorem describes_or {M N : St → St → Prop} {R S : Reading} (hM : Describes M R) (hN : Describes N S) :
    Describes (fun s s' => M s s' ∨ N s s') (fun pre m post => R pre m post ∨ S pre m post) := by
  intro pre s s' hp
  show (M s s' ∨ N s s') ↔ _
  rw [hM pre s s' hp, hN pre s s' hp]
  constructor
  · rintro (⟨m, h1, h2⟩ | ⟨m, h1, h2⟩)
    · exact ⟨m, h1, .inl h2⟩
    · exact ⟨m, h1, .inr h2⟩
  · rintro ⟨m, h1, h2 | h2⟩
    · exact .inl ⟨m, h1, h2⟩
    · exact .inr ⟨m, h1, h2⟩

theorem describes_eq : Describes (fun s s' => s' = s) (fun _ m _ => m = []) := by
  intro pre s s' _
  constructor
  · rintro rfl; exact ⟨[], moves_nil.2 rfl, rfl⟩
  · rintro ⟨m, h, rfl⟩; exact moves_nil.1 h

theorem describes_iter {M : St → St → Prop} {R : Reading} (hM : Describes M R) : ∀ n, Describes (Iter M n) (R.times n)
  | 0 => describes_eq
  | n + 1 => describes_seq hM (describes_iter hM n)

theorem describes_ex {M : Nat → St → St → Prop} {R : Nat → Reading} {P : Nat → Prop} (h : ∀ n, Describes (M n) (R n)) :
    Describes (fun s s' => ∃ n, P n ∧ M n s s') (fun pre m post => ∃ n, P n ∧ R n pre m post) := by
  intro pre s s' hp
  constructor
  · rintro ⟨n, hn, h1⟩
    obtain ⟨m, h2, h3⟩ := (h n pre s s' hp).1 h1
    exact ⟨m, h2, n, hn, h3⟩
  · rintro ⟨m, h2, n, hn, h3⟩
    exact ⟨n, hn, (h n pre s s' hp).2 ⟨m, h2, h3⟩⟩

theorem describes_congr {M : St → St → Prop} {R S : Reading} (hM : Describes M R) (h : ∀ pre m post, R pre m post ↔ S pre m post) :
    Describes M S := by
  intro pre s s' hp
  rw [hM pre s s' hp]
  simp only [h]

theorem times_one (p : Char → Prop) : ∀ n pre m post, Reading.times (.one p) n pre m post ↔ m.length = n ∧ ∀ c ∈ m, p c := by
  intro n
  induction n with
  | zero => intro pre m post; simp only [Reading.times, List.length_eq_zero_iff]; constructor
            · rintro rfl; simp
            · exact fun h => h.1
  | succ n ih =>
    intro pre m post
    simp only [Reading.times, Reading.seq, Reading.one]
    constructor
    · rintro ⟨_, b, rfl, ⟨c, rfl, hc⟩, hb⟩
      rw [ih] at hb
      refine ⟨by simp [hb.1], ?_⟩
      intro d hd
      rcases List.mem_cons.1 hd with rfl | hd
      · exact hc
      · exact hb.2 d hd
    · rintro ⟨h1, h2⟩
      match m, h1 with
      | c :: m, h1 =>
        refine ⟨[c], m, rfl, ⟨c, rfl, h2 c (List.mem_cons_self ..)⟩, ?_⟩
        rw [ih]
        exact ⟨by simpa using h1, fun d hd => h2 d (List.mem_cons_of_mem _ hd)⟩

theorem describes_string : ∀ (cs : Text), Describes (EatsAll (fun e c => c = e) cs) (fun _ m _ => m = cs)
  | [] => describes_eq
  | e :: es => by
    refine describes_congr (describes_seq (describes_eats (· = e)) (describes_string es)) ?_
    intro pre m post
    simp only [Reading.seq, Reading.one]
    constructor
    · rintro ⟨_, b, rfl, ⟨c, rfl, rfl⟩, rfl⟩; rfl
    · rintro rfl; exact ⟨[e], es, rfl, ⟨e, rfl, rfl⟩, rfl⟩

theorem describes_notChar (e : Char) : Describes (EatsAll (fun e c => c ≠ e) [e]) (fun _ m _ => m.length = [e].length ∧ m ≠ [e]) := by
  refine describes_congr (describes_seq (describes_eats (· ≠ e)) describes_eq) ?_
  intro pre m post
  simp only [Reading.seq, Reading.one]
  constructor
  · rintro ⟨_, b, rfl, ⟨c, rfl, h⟩, rfl⟩; simpa using h
  · rintro ⟨h1, h2⟩
    match m, h1 with
    | [c], _ => exact ⟨[c], [], rfl, ⟨c, rfl, by simpa using h2⟩, rfl⟩

theorem describes_some {M : St → St → Prop} {p : Char → Prop} (hM : Describes M (.one p)) (n : Nat) :
    Describes (Iter M n) (.some (some (.number n)) p) :=
  describes_congr (describes_iter hM n) fun pre m post => by
    have : Reading.times (.one p) n pre m post ↔ m.length = n ∧ ∀ c ∈ m, p c := times_one p n pre m post
    exact this

/-! ## Classes -/

theorem classes_mem_get (ctx : CharClasses) (k : CharClass) (c : Char) : c ∈ (ctx.get k).getD [] ↔ ctx.has k c = true := by
  have : ctx.has k c = true ↔ (k, c) ∈ List.filter (fun e : CharClass × Char => e.1 == k) ctx := by
    unfold CharClasses.has
    rw [List.contains_iff_mem, List.mem_filter]
    simp
  unfold CharClasses.get
  rw [this]
  split
  · next h => rw [h]; simp
  · next l h =>
    simp only [Option.getD_some, List.mem_map]
    constructor
    · rintro ⟨⟨k', c'⟩, h1, rfl⟩
      have h2 := (List.mem_filter.1 h1).2
      simp only [beq_iff_eq] at h2
      subst h2; exact h1
    · intro h1; exact ⟨_, h1, rfl⟩

/-- Only classes among the attributes (the other attributes are not implemented in the code). -/
def OnlyClasses (as : List Attr) : Prop := ∀ a ∈ as, ∃ k, a = .cls k

theorem mem_attributes (ctx : CharClasses) (as : List Attr) (h : OnlyClasses as) (c : Char) :
    c ∈ (as.flatMap fun | .cls k => (ctx.get k).getD [] | _ => []) ↔ HasAttr ctx as c := by
  rw [List.mem_flatMap]
  unfold HasAttr
  constructor
  · rintro ⟨a, ha, hc⟩
    obtain ⟨k, rfl⟩ := h a ha
    exact .inr ⟨k, ha, (classes_mem_get ctx k c).1 hc⟩
  · rintro (ha | ⟨k, hk, hc⟩)
    · obtain ⟨k, hk⟩ := h _ ha; cases hk
    · exact ⟨_, hk, (classes_mem_get ctx k c).2 hc⟩

variable {rng : Nat → Nat → Nat → Prop} {lower : Char → List Char} {env : Env} {atStart : Bool}

theorem describes_quantified (cs : List Char) (p : Char → Prop) (hp : ∀ c, c ∈ cs ↔ p c) (q : Option Quantifier)
    (hq : ∀ a b, q ≠ some (.range a b)) : Describes (MatchesWith rng lower env atStart (quantified cs q)) (.some q p) := by
  have hone : Describes (Eats (· ∈ cs)) (.one p) := describes_congr (describes_eats _) fun pre m post => by
    simp only [Reading.one, hp]
  match q, hq with
  | none, _ =>
    exact describes_congr hone fun pre m post => by
      have h1 := times_one p 1 pre m post
      simp only [Reading.times, Reading.seq, Reading.one] at h1
      simp only [Reading.some, admits, Reading.one, ← h1]
      constructor
      · rintro ⟨c, rfl, h⟩; exact ⟨[c], [], rfl, ⟨c, rfl, h⟩, rfl⟩
      · rintro ⟨_, _, rfl, ⟨c, rfl, h⟩, rfl⟩; exact ⟨c, rfl, h⟩
  | some (.number n), _ => exact describes_some hone n
  | some .oneOrMore, _ =>
    refine describes_congr (describes_ex (P := fun n => 1 ≤ n) (fun n => describes_iter hone n)) fun pre m post => ?_
    simp only [times_one, Reading.some, admits]
    constructor
    · rintro ⟨n, h1, rfl, h2⟩; exact ⟨h1, h2⟩
    · rintro ⟨h1, h2⟩; exact ⟨_, h1, rfl, h2⟩
  | some (.range a b), hq => exact absurd rfl (hq a b)

theorem describes_notQuantified (cs : List Char) (p : Char → Prop) (hp : ∀ c, c ∈ cs ↔ p c) (q : Option Quantifier)
    (hq : ∀ a b, q ≠ some (.range a b)) (r : Regexp) (hr : Regexp.negate (quantified cs q) = some r) :
    Describes (MatchesWith rng lower env atStart r) (.some q fun c => ¬ p c) := by
  have hone : Describes (Eats (· ∉ cs)) (.one fun c => ¬ p c) := describes_congr (describes_eats _) fun pre m post => by
    simp only [Reading.one, hp]
  match q, hq with
  | none, _ =>
    cases hr
    exact describes_congr hone fun pre m post => by
      have h1 := times_one (fun c => ¬ p c) 1 pre m post
      simp only [Reading.times, Reading.seq, Reading.one] at h1
      simp only [Reading.some, admits, Reading.one, ← h1]
      constructor
      · rintro ⟨c, rfl, h⟩; exact ⟨[c], [], rfl, ⟨c, rfl, h⟩, rfl⟩
      · rintro ⟨_, _, rfl, ⟨c, rfl, h⟩, rfl⟩; exact ⟨c, rfl, h⟩
  | some (.number n), _ => cases hr; exact describes_some hone n
  | some .oneOrMore, _ =>
    cases hr
    refine describes_congr (describes_ex (P := fun n => 1 ≤ n) (fun n => describes_iter hone n)) fun pre m post => ?_
    simp only [times_one, Reading.some, admits]
    constructor
    · rintro ⟨n, h1, rfl, h2⟩; exact ⟨h1, h2⟩
    · rintro ⟨h1, h2⟩; exact ⟨_, h1, rfl, h2⟩
  | some (.range a b), hq => exact absurd rfl (hq a b)

theorem pre_nil {pre : Text} {s : St} (h : utf8Len pre = s.sp) : s.sp = 0 ↔ pre = [] := by
  rw [← h, utf8Len_eq_zero]

theorem describes_startAnchor : Describes (MatchesWith rng lower env atStart .startAnchor)
    (.here fun pre _ => atStart = true ∧ pre = []) :=
  describes_here (C := fun s => atStart = true ∧ s.sp = 0) (fun _ _ => Iff.rfl) fun pre s hp => by
    show (atStart = true ∧ s.sp = 0) ↔ _
    rw [pre_nil hp]

theorem describes_notStartAnchor : Describes (MatchesWith rng lower env atStart .notStartAnchor)
    (.here fun pre _ => ¬ (atStart = true ∧ pre = [])) :=
  describes_here (C := fun s => ¬ (atStart = true ∧ s.sp = 0)) (fun _ _ => Iff.rfl) fun pre s hp => by
    show (¬ (atStart = true ∧ s.sp = 0)) ↔ _
    rw [pre_nil hp]

theorem describes_endAnchor : Describes (MatchesWith rng lower env atStart .endAnchor) (.here fun _ post => post = []) :=
  describes_here (C := fun s => s.rest = []) (fun _ _ => Iff.rfl) fun _ _ _ => Iff.rfl

theorem describes_notEndAnchor : Describes (MatchesWith rng lower env atStart .notEndAnchor) (.here fun _ post => post ≠ []) :=
  describes_here (C := fun s => s.rest ≠ []) (fun _ _ => Iff.rfl) fun _ _ _ => Iff.rfl

theorem describes_empty : Describes (MatchesWith rng lower env atStart .empty) (.here fun _ _ => True) :=
  describes_here (C := fun _ => True) (fun s s' => by simp [MatchesWith]) fun _ _ _ => Iff.rfl

end Louis
