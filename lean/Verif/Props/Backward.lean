import Verif.Props.Spans
import Verif.Props.Main

/-!
# C40: capitals and numbers in backward translation
-/

namespace Louis

open Regexp (Fault)

/-! ## Specification: reading the signs of a braille text -/

/-- The pieces of a braille text as far as numbers are concerned. -/
inductive NumTok where
  /-- the number sign -/
  | sign
  /-- the sign that ends a number -/
  | stop
  /-- a cell read as a digit -/
  | digit (c : Char)
  /-- any other cell -/
  | cell (c : Char)
  deriving Repr, DecidableEq

/-- The cells of a piece. -/
def NumTok.text (d : NumDots) : NumTok → Text
  | .sign => d.numsign.getD []
  | .stop => d.nonumsign.getD []
  | .digit c | .cell c => [c]

/-- The cells of a list of pieces. -/
def numText (d : NumDots) (ts : List NumTok) : Text := ts.flatMap (NumTok.text d)

/-- A number is open after these pieces: there was a number sign, and only digits since. -/
def NumOpen (ts : List NumTok) : Prop := ∃ a b, ts = a ++ .sign :: b ∧ ∀ t ∈ b, ∃ c, t = .digit c

/-- A number sign stands here: its dots begin the rest and the cell before is not a letter. -/
def SignHere (d : NumDots) (before rest : Text) : Prop :=
  ∃ s, d.numsign = some s ∧ s <+: rest ∧ ∀ c, before.getLast? = some c → c ∉ d.letters

/-- The sign that ends numbers stands here. -/
def StopHere (d : NumDots) (rest : Text) : Prop := ∃ s, d.nonumsign = some s ∧ s <+: rest

/-- The piece `t` is the right reading of what follows the pieces `before`. -/
def RightTok (d : NumDots) (before : List NumTok) (t : NumTok) (rest : Text) : Prop :=
  match t with
  | .sign => SignHere d (numText d before) rest
  | .stop => ¬ SignHere d (numText d before) rest ∧ NumOpen before ∧ StopHere d rest
  | .digit c => ¬ SignHere d (numText d before) rest ∧ NumOpen before ∧ ¬ StopHere d rest ∧ c ∈ d.digits
  | .cell c => ¬ SignHere d (numText d before) rest ∧ (NumOpen before → ¬ StopHere d rest ∧ c ∉ d.digits)

/-- A list of pieces is the reading of `input`. -/
structure NumReading (d : NumDots) (input : Text) (ts : List NumTok) : Prop where
  text : numText d ts = input
  right : ∀ a t b, ts = a ++ t :: b → RightTok d a t (numText d (t :: b))

/-! ## The number sign -/

/-- The signs are not empty (a dots operand always has at least one cell, see C54). -/
structure NumDots.Wf (d : NumDots) : Prop where
  numsign : d.numsign ≠ some []
  nonumsign : d.nonumsign ≠ some []

theorem numText_append (d : NumDots) (a b : List NumTok) : numText d (a ++ b) = numText d a ++ numText d b := by
  simp [numText]

theorem any_startsWith (o : Option Text) (rest : Text) : o.any (startsWith rest) = true ↔ ∃ s, o = some s ∧ s <+: rest := by
  cases o <;> simp [startsWith, List.isPrefixOf_iff_prefix]

theorem signHere_iff (d : NumDots) (before rest : Text) :
    (d.numsign.any (startsWith rest) && !((before.getLast?).any (d.letters.contains ·))) = true ↔ SignHere d before rest := by
  rw [Bool.and_eq_true, any_startsWith]
  unfold SignHere
  have : (!((before.getLast?).any (d.letters.contains ·))) = true ↔ ∀ c, before.getLast? = some c → c ∉ d.letters := by
    cases before.getLast? <;> simp
  rw [this]
  constructor
  · rintro ⟨⟨s, h1, h2⟩, h3⟩; exact ⟨s, h1, h2, h3⟩
  · rintro ⟨s, h1, h2, h3⟩; exact ⟨⟨s, h1, h2⟩, h3⟩

theorem numOpen_sign (a : List NumTok) : NumOpen (a ++ [.sign]) := ⟨a, [], rfl, by simp⟩

theorem not_numOpen_end {a : List NumTok} {t : NumTok} (h1 : t ≠ .sign) (h2 : ∀ c, t ≠ .digit c) : ¬ NumOpen (a ++ [t]) := by
  rintro ⟨x, y, h, hy⟩
  rcases List.eq_nil_or_concat y with rfl | ⟨y, u, rfl⟩
  · have := List.append_inj' h rfl
    simp only [List.cons.injEq, and_true] at this
    exact h1 this.2
  · rw [List.concat_eq_append, ← List.cons_append, ← List.append_assoc] at h
    have := List.append_inj' h rfl
    simp only [List.cons.injEq, and_true] at this
    obtain ⟨c, hc⟩ := hy u (by simp)
    exact h2 c (by rw [this.2, hc])

theorem numOpen_digit {a : List NumTok} (c : Char) (h : NumOpen a) : NumOpen (a ++ [.digit c]) := by
  obtain ⟨x, y, rfl, hy⟩ := h
  refine ⟨x, y ++ [.digit c], by simp, ?_⟩
  intro t ht
  rcases List.mem_append.1 ht with h | h
  · exact hy t h
  · exact ⟨c, by simpa using h⟩

/-- Nothing was read yet: no number is open. -/
theorem not_numOpen_nil : ¬ NumOpen [] := by
  rintro ⟨x, y, h, -⟩
  simp at h

/-- The positions of the digits of a reading that starts at `pos`. -/
def digitPositions (d : NumDots) : Nat → List NumTok → List Nat
  | _, [] => []
  | pos, t :: ts => (match t with | .digit _ => [pos] | _ => []) ++ digitPositions d (pos + (t.text d).length) ts

theorem mem_digitPositions (d : NumDots) (ts : List NumTok) : ∀ (pos p : Nat), p ∈ digitPositions d pos ts ↔
    ∃ x c y, ts = x ++ .digit c :: y ∧ p = pos + (numText d x).length := by
  induction ts with
  | nil => intro pos p; simp [digitPositions]
  | cons t ts ih =>
    intro pos p
    have e : digitPositions d pos (t :: ts) =
      (match t with | .digit _ => [pos] | _ => []) ++ digitPositions d (pos + (t.text d).length) ts := rfl
    rw [e, List.mem_append, ih]
    constructor
    · rintro (h | ⟨x, c, y, rfl, rfl⟩)
      · cases t <;> simp at h
        exact ⟨[], _, ts, rfl, by simp [numText, h]⟩
      · refine ⟨t :: x, c, y, rfl, ?_⟩
        simp [numText, Nat.add_assoc]
    · rintro ⟨x, c, y, h, rfl⟩
      cases x with
      | nil =>
        simp at h
        obtain ⟨rfl, rfl⟩ := h
        exact .inl (by simp [numText])
      | cons u x =>
        simp at h
        obtain ⟨rfl, rfl⟩ := h
        exact .inr ⟨x, c, y, rfl, by simp [numText, Nat.add_assoc]⟩

theorem drop_of_prefix {s rest : Text} (h : s <+: rest) : s ++ rest.drop s.length = rest := by
  obtain ⟨t, rfl⟩ := h
  simp

theorem rightTok_cons {d : NumDots} {a : List NumTok} {t : NumTok} {ts : List NumTok}
    (h : RightTok d a t (numText d (t :: ts)))
    (ih : ∀ x u y, ts = x ++ u :: y → RightTok d (a ++ [t] ++ x) u (numText d (u :: y))) :
    ∀ x u y, t :: ts = x ++ u :: y → RightTok d (a ++ x) u (numText d (u :: y)) := by
  intro x u y e
  cases x with
  | nil =>
    simp at e
    obtain ⟨rfl, rfl⟩ := e
    simpa using h
  | cons v x =>
    simp at e
    obtain ⟨rfl, rfl⟩ := e
    simpa using ih x u y rfl

theorem num_prev {d : NumDots} (a : List NumTok) (t : NumTok) :
    (numText d (a ++ [t])).getLast? = if t.text d = [] then (numText d a).getLast? else (t.text d).getLast? := by
  rw [numText_append]
  have : numText d [t] = t.text d := by simp [numText]
  rw [this, List.getLast?_append]
  split
  · rename_i h; simp [h]
  · rename_i h
    cases h' : (t.text d).getLast? with
    | none => exact absurd (List.getLast?_eq_none_iff.1 h') h
    | some c => rfl

/-- The scanner reads the text. -/
theorem num_loop {d : NumDots} (wf : d.Wf) : ∀ (fuel : Nat) (rest : Text) (a : List NumTok) (pos : Nat) (prev : Option Char)
    (inN : Bool), rest.length < fuel → prev = (numText d a).getLast? → (inN = true ↔ NumOpen a) →
    ∃ ts, numText d ts = rest ∧ (∀ x t y, ts = x ++ t :: y → RightTok d (a ++ x) t (numText d (t :: y))) ∧
      d.loop fuel pos prev inN rest = .ok (digitPositions d pos ts) := by
  intro fuel
  induction fuel with
  | zero => intro rest a pos prev inN h; omega
  | succ fuel ih =>
    intro rest a pos prev inN hlen hprev hin
    cases rest with
    | nil =>
      refine ⟨[], rfl, ?_, by simp [NumDots.loop, digitPositions]⟩
      intro x t y h; simp at h
    | cons c cs =>
      rw [NumDots.loop]
      subst hprev
      have hsign := signHere_iff d (numText d a) (c :: cs)
      have step : ∀ (t : NumTok) (r : Text) (inN' : Bool), t.text d ++ r = c :: cs → t.text d ≠ [] →
          (inN' = true ↔ NumOpen (a ++ [t])) → (∀ ts, numText d (t :: ts) = c :: cs → RightTok d a t (numText d (t :: ts))) →
          ∃ ts, numText d ts = c :: cs ∧ (∀ x t y, ts = x ++ t :: y → RightTok d (a ++ x) t (numText d (t :: y))) ∧
            ∃ ts', ts = t :: ts' ∧
              d.loop fuel (pos + (t.text d).length) (t.text d).getLast? inN' r = .ok (digitPositions d (pos + (t.text d).length) ts') := by
        intro t r inN' htext hne hopen hright
        have hl : (t.text d).length + r.length = (c :: cs).length := by rw [← htext]; simp
        have hpos : 0 < (t.text d).length := List.length_pos_iff.2 hne
        obtain ⟨ts, h1, h2, h3⟩ := ih r (a ++ [t]) (pos + (t.text d).length) (t.text d).getLast? inN' (by omega)
          (by rw [num_prev, if_neg hne]) hopen
        have hts : numText d (t :: ts) = c :: cs := by
          rw [← htext, ← h1]; simp [numText]
        exact ⟨t :: ts, hts, rightTok_cons (hright ts hts) h2, ts, rfl, h3⟩
      split
      · rename_i h
        have hs := hsign.1 h
        obtain ⟨s, e1, e2, e3⟩ := id hs
        have htx : NumTok.text d .sign = s := by simp [NumTok.text, e1]
        have hne : s ≠ [] := by rintro rfl; exact wf.numsign e1
        obtain ⟨ts, h1, h2, ts', rfl, h3⟩ := step .sign ((c :: cs).drop s.length) true (by rw [htx]; exact drop_of_prefix e2)
          (by rwa [htx]) (by simp [numOpen_sign]) (by intro ts hts; rw [hts]; exact hs)
        refine ⟨_, h1, h2, ?_⟩
        rw [htx] at h3
        simp only [e1, Option.getD_some, if_neg hne]
        rw [h3]
        simp [digitPositions, htx]
      · rename_i h
        have hns : ¬ SignHere d (numText d a) (c :: cs) := fun h' => h (hsign.2 h')
        have cellCase : (NumOpen a → ¬ StopHere d (c :: cs) ∧ c ∉ d.digits) →
            ∃ ts, numText d ts = c :: cs ∧ (∀ x t y, ts = x ++ t :: y → RightTok d (a ++ x) t (numText d (t :: y))) ∧
              d.loop fuel (pos + 1) (some c) false cs = .ok (digitPositions d pos ts) := by
          intro hc
          obtain ⟨ts, h1, h2, ts', rfl, h3⟩ := step (.cell c) cs false rfl (by simp [NumTok.text])
            (by simp only [Bool.false_eq_true, false_iff]; exact not_numOpen_end (by simp) (by simp))
            (by intro ts hts; rw [hts]; exact ⟨hns, hc⟩)
          refine ⟨_, h1, h2, ?_⟩
          simp only [NumTok.text, List.length_singleton, List.getLast?_singleton] at h3
          rw [h3]; simp [digitPositions, NumTok.text]
        split
        · rename_i hI
          have hopen := hin.1 hI
          split
          · rename_i hst
            obtain ⟨s, e1, e2⟩ := (any_startsWith _ _).1 hst
            have htx : NumTok.text d .stop = s := by simp [NumTok.text, e1]
            have hne : s ≠ [] := by rintro rfl; exact wf.nonumsign e1
            obtain ⟨ts, h1, h2, ts', rfl, h3⟩ := step .stop ((c :: cs).drop s.length) false (by rw [htx]; exact drop_of_prefix e2)
              (by rwa [htx])
              (by simp only [Bool.false_eq_true, false_iff]; exact not_numOpen_end (by simp) (by simp))
              (by intro ts hts; rw [hts]; exact ⟨hns, hopen, s, e1, e2⟩)
            refine ⟨_, h1, h2, ?_⟩
            rw [htx] at h3
            simp only [e1, Option.getD_some, if_neg hne]
            rw [h3]
            simp [digitPositions, htx]
          · rename_i hst
            have hns' : ¬ StopHere d (c :: cs) := fun h' => hst ((any_startsWith _ _).2 h')
            split
            · rename_i hd
              have hd : c ∈ d.digits := by simpa using hd
              obtain ⟨ts, h1, h2, ts', rfl, h3⟩ := step (.digit c) cs true rfl (by simp [NumTok.text])
                (by simp [numOpen_digit c hopen])
                (by intro ts hts; rw [hts]; exact ⟨hns, hopen, hns', hd⟩)
              refine ⟨_, h1, h2, ?_⟩
              simp only [NumTok.text, List.length_singleton, List.getLast?_singleton] at h3
              rw [h3]; simp [digitPositions, NumTok.text]
            · rename_i hd
              exact cellCase fun _ => ⟨hns', by simpa using hd⟩
        · rename_i hI
          exact cellCase fun h' => absurd (hin.2 h') hI

/-- A text has at most one reading. -/
theorem numReading_unique {d : NumDots} (wf : d.Wf) : ∀ (ts us a : List NumTok), numText d ts = numText d us →
    (∀ x t y, ts = x ++ t :: y → RightTok d (a ++ x) t (numText d (t :: y))) →
    (∀ x t y, us = x ++ t :: y → RightTok d (a ++ x) t (numText d (t :: y))) → ts = us := by
  have hpos : ∀ (a : List NumTok) t r, RightTok d a t r → t.text d ≠ [] := by
    intro a t r h
    cases t with
    | sign => obtain ⟨s, h1, -, -⟩ := h; intro h; simp [NumTok.text, h1] at h; exact wf.numsign (h ▸ h1)
    | stop => obtain ⟨-, -, s, h1, -⟩ := h; intro h; simp [NumTok.text, h1] at h; exact wf.nonumsign (h ▸ h1)
    | digit c => simp [NumTok.text]
    | cell c => simp [NumTok.text]
  intro ts
  induction ts with
  | nil =>
    intro us a h _ h2
    cases us with
    | nil => rfl
    | cons u us =>
      exfalso
      have := hpos _ _ _ (h2 [] u us rfl)
      simp [numText] at h
      exact this h.1
  | cons t ts ih =>
    intro us a h h1 h2
    cases us with
    | nil =>
      exfalso
      have := hpos _ _ _ (h1 [] t ts rfl)
      simp [numText] at h
      exact this h.1
    | cons u us =>
      have r1 := h1 [] t ts rfl
      have r2 := h2 [] u us rfl
      rw [List.append_nil] at r1 r2
      rw [h] at r1
      have hh : numText d (t :: ts) = t.text d ++ numText d ts := by simp [numText]
      have hh' : numText d (u :: us) = u.text d ++ numText d us := by simp [numText]
      have htu : t = u := by
        rw [hh, hh'] at h
        cases t <;> cases u <;> simp only [RightTok, NumTok.text, List.singleton_append, List.cons.injEq] at r1 r2 h ⊢ <;> simp_all
      subst htu
      have : numText d ts = numText d us := by
        rw [hh, hh'] at h
        exact List.append_cancel_left h
      rw [ih us (a ++ [t]) this]
      · intro x v y e; subst e; simpa using h1 (t :: x) v y rfl
      · intro x v y e; subst e; simpa using h2 (t :: x) v y rfl

/-! ## Specification: reading the capital signs of a braille text -/

/-- The pieces of a braille text as far as capitals are concerned. -/
inductive CapsTok where
  /-- a capitalised word: the word sign, the letters, and the terminator if `closed` -/
  | word (letters : Text) (closed : Bool)
  /-- the sign of a single capital -/
  | mark
  /-- any other cell -/
  | cell (c : Char)
  deriving Repr, DecidableEq

/-- The terminator of a capitalised word. -/
def closer (d : CapsDots) (closed : Bool) : Text := if closed then d.endcapsword.getD [] else []

/-- The cells of a piece. -/
def CapsTok.text (d : CapsDots) : CapsTok → Text
  | .word ls closed => d.begcapsword.getD [] ++ ls ++ closer d closed
  | .mark => d.capsletter.getD []
  | .cell c => [c]

def capsText (d : CapsDots) (ts : List CapsTok) : Text := ts.flatMap (CapsTok.text d)

/-- A sign stands here. -/
def Stands (sign : Option Text) (rest : Text) : Prop := ∃ s, sign = some s ∧ s <+: rest

/-- `ls` are exactly the letters of a capitalised word followed by `after`: letters up to the terminator or to the first cell
that is no letter. -/
structure CapsWord (d : CapsDots) (ls : Text) (closed : Bool) (after : Text) : Prop where
  letters : ∀ c ∈ ls, c ∈ d.letters
  /-- the terminator does not stand before any of them -/
  inside : ∀ x c y, ls = x ++ c :: y → ¬ Stands d.endcapsword (c :: y ++ after)
  /-- the word ends at the terminator, or at a cell that is no letter, or at the end of the text -/
  ends : if closed then Stands d.endcapsword after
    else ¬ Stands d.endcapsword after ∧ ∀ c, after.head? = some c → c ∉ d.letters

/-- The piece `t`, with `rest` after it, is the right reading here. -/
def CapsTok.Right (d : CapsDots) (t : CapsTok) (rest : Text) : Prop :=
  match t with
  | .word ls closed => d.begcapsword ≠ none ∧ CapsWord d ls closed (closer d closed ++ rest)
  | .mark => d.capsletter ≠ none ∧ ¬ Stands d.begcapsword (t.text d ++ rest)
  | .cell _ => ¬ Stands d.begcapsword (t.text d ++ rest) ∧ ¬ Stands d.capsletter (t.text d ++ rest)

/-- A list of pieces is the reading of `input`. -/
structure CapsReading (d : CapsDots) (input : Text) (ts : List CapsTok) : Prop where
  text : capsText d ts = input
  right : ∀ a t b, ts = a ++ t :: b → t.Right d (capsText d b)

/-! ## Capitals -/

/-- The signs are not empty. -/
structure CapsDots.Wf (d : CapsDots) : Prop where
  capsletter : d.capsletter ≠ some []
  begcapsword : d.begcapsword ≠ some []

theorem stands_iff (o : Option Text) (rest : Text) : o.any (startsWith rest) = true ↔ Stands o rest := any_startsWith o rest

/-- The scanner of a capitalised word. -/
theorem caps_word (d : CapsDots) : ∀ (rest : Text) (pos : Nat), ∃ ls closed r,
    rest = ls ++ (closer d closed ++ r) ∧ CapsWord d ls closed (closer d closed ++ r) ∧
    d.word pos rest = (List.range' pos ls.length, pos + ls.length + (closer d closed).length, r) := by
  intro rest
  induction rest with
  | nil =>
    intro pos
    rw [CapsDots.word]
    by_cases h : d.endcapsword.any (startsWith []) = true
    · obtain ⟨s, h1, h2⟩ := (stands_iff _ _).1 h
      refine ⟨[], true, [], ?_, ⟨by simp, by simp, ?_⟩, ?_⟩
      · simp [closer, h1]; simpa using h2
      · simp only [if_true]
        exact ⟨s, h1, by simp [closer, h1]⟩
      · rw [if_pos h]; simp [h1, closer]
    · have hn : ¬ Stands d.endcapsword [] := fun h' => h ((stands_iff _ _).2 h')
      exact ⟨[], false, [], by simp [closer], ⟨by simp, by simp, by simp [closer, hn]⟩, by rw [if_neg h]; simp [closer]⟩
  | cons c cs ih =>
    intro pos
    rw [CapsDots.word]
    split
    · rename_i h
      obtain ⟨s, h1, h2⟩ := (stands_iff _ _).1 h
      have hd := drop_of_prefix h2
      refine ⟨[], true, (c :: cs).drop s.length, ?_, ⟨by simp, by simp, ?_⟩, ?_⟩
      · simp only [List.nil_append, closer, if_true, h1, Option.getD_some]
        exact hd.symm
      · simp only [if_true]
        exact ⟨s, h1, by simp [closer, h1]⟩
      · simp [h1, closer]
    · rename_i h
      have hn : ¬ Stands d.endcapsword (c :: cs) := fun h' => h ((stands_iff _ _).2 h')
      split
      · rename_i hl
        have hl : c ∈ d.letters := by simpa using hl
        obtain ⟨ls, closed, r, h1, h2, h3⟩ := ih (pos + 1)
        refine ⟨c :: ls, closed, r, by rw [h1]; simp, ⟨?_, ?_, h2.ends⟩, ?_⟩
        · intro x hx
          rcases List.mem_cons.1 hx with rfl | hx
          · exact hl
          · exact h2.letters x hx
        · intro x c' y e
          cases x with
          | nil =>
            simp at e
            obtain ⟨rfl, rfl⟩ := e
            rw [List.cons_append, ← h1]; exact hn
          | cons b x =>
            simp at e
            exact h2.inside x c' y e.2
        · rw [h3]
          simp [List.range'_succ]
          omega
      · rename_i hl
        have hl : c ∉ d.letters := by simpa using hl
        exact ⟨[], false, c :: cs, by simp [closer], ⟨by simp, by simp, by simp [closer, hn, hl]⟩, by simp [closer]⟩

/-- The positions of the letters of capitalised words. -/
def upperPositions (d : CapsDots) : Nat → List CapsTok → List Nat
  | _, [] => []
  | pos, t :: ts => (match t with
      | .word ls _ => List.range' (pos + (d.begcapsword.getD []).length) ls.length
      | _ => []) ++ upperPositions d (pos + (t.text d).length) ts

/-- The positions after the signs of single capitals. -/
def titlePositions (d : CapsDots) : Nat → List CapsTok → List Nat
  | _, [] => []
  | pos, t :: ts => (match t with
      | .mark => if capsText d ts = [] then [] else [pos + (t.text d).length]
      | _ => []) ++ titlePositions d (pos + (t.text d).length) ts

theorem mem_upperPositions (d : CapsDots) (ts : List CapsTok) : ∀ (pos p : Nat), p ∈ upperPositions d pos ts ↔
    ∃ x ls closed y, ts = x ++ .word ls closed :: y ∧ pos + (capsText d x).length + (d.begcapsword.getD []).length ≤ p ∧
      p < pos + (capsText d x).length + (d.begcapsword.getD []).length + ls.length := by
  induction ts with
  | nil => intro pos p; simp [upperPositions]
  | cons t ts ih =>
    intro pos p
    have e : upperPositions d pos (t :: ts) =
      (match t with
      | .word ls _ => List.range' (pos + (d.begcapsword.getD []).length) ls.length
      | _ => []) ++ upperPositions d (pos + (t.text d).length) ts := rfl
    rw [e, List.mem_append, ih]
    have hc : ∀ x, capsText d (t :: x) = t.text d ++ capsText d x := fun x => by simp [capsText]
    constructor
    · rintro (h | ⟨x, ls, closed, y, rfl, h1, h2⟩)
      · cases t with
        | word ls closed =>
          simp only [List.mem_range'_1] at h
          exact ⟨[], ls, closed, ts, rfl, by simp [capsText]; omega, by simp [capsText]; omega⟩
        | _ => simp at h
      · refine ⟨t :: x, ls, closed, y, rfl, ?_, ?_⟩ <;> rw [hc, List.length_append] <;> omega
    · rintro ⟨x, ls, closed, y, h, h1, h2⟩
      cases x with
      | nil =>
        simp at h
        obtain ⟨rfl, rfl⟩ := h
        refine .inl ?_
        simp [capsText] at h1 h2
        simp only [List.mem_range'_1]; omega
      | cons u x =>
        simp at h
        obtain ⟨rfl, rfl⟩ := h
        rw [hc, List.length_append] at h1 h2
        exact .inr ⟨x, ls, closed, y, rfl, by omega, by omega⟩

theorem mem_titlePositions (d : CapsDots) (ts : List CapsTok) : ∀ (pos p : Nat), p ∈ titlePositions d pos ts ↔
    ∃ x y, ts = x ++ .mark :: y ∧ capsText d y ≠ [] ∧ p = pos + (capsText d (x ++ [.mark])).length := by
  induction ts with
  | nil => intro pos p; simp [titlePositions]
  | cons t ts ih =>
    intro pos p
    have e : titlePositions d pos (t :: ts) =
      (match t with
      | .mark => if capsText d ts = [] then [] else [pos + (t.text d).length]
      | _ => []) ++ titlePositions d (pos + (t.text d).length) ts := rfl
    rw [e, List.mem_append, ih]
    have hc : ∀ x, capsText d (t :: x) = t.text d ++ capsText d x := fun x => by simp [capsText]
    constructor
    · rintro (h | ⟨x, y, rfl, h1, rfl⟩)
      · cases t with
        | mark =>
          simp only at h
          split at h
          · simp at h
          · rename_i hne
            simp at h
            exact ⟨[], ts, rfl, hne, by simp [capsText, h]⟩
        | _ => simp at h
      · refine ⟨t :: x, y, rfl, h1, ?_⟩
        rw [List.cons_append, hc, List.length_append]; omega
    · rintro ⟨x, y, h, h1, rfl⟩
      cases x with
      | nil =>
        simp at h
        obtain ⟨rfl, rfl⟩ := h
        refine .inl ?_
        simp only [if_neg h1]
        simp [capsText]
      | cons u x =>
        simp at h
        obtain ⟨rfl, rfl⟩ := h
        refine .inr ⟨x, y, rfl, h1, ?_⟩
        rw [List.cons_append, hc, List.length_append]; omega

theorem capsRight_cons {d : CapsDots} {t : CapsTok} {ts : List CapsTok} (h : t.Right d (capsText d ts))
    (ih : ∀ x u y, ts = x ++ u :: y → u.Right d (capsText d y)) :
    ∀ x u y, t :: ts = x ++ u :: y → u.Right d (capsText d y) := by
  intro x u y e
  cases x with
  | nil =>
    simp at e
    obtain ⟨rfl, rfl⟩ := e
    exact h
  | cons v x =>
    simp at e
    exact ih x u y e.2

theorem caps_loop {d : CapsDots} (wf : d.Wf) : ∀ (fuel : Nat) (rest : Text) (pos : Nat), rest.length < fuel →
    ∃ ts, CapsReading d rest ts ∧ d.loop fuel pos rest = .ok (upperPositions d pos ts, titlePositions d pos ts) := by
  intro fuel
  induction fuel with
  | zero => intro rest pos h; omega
  | succ fuel ih =>
    intro rest pos hlen
    cases rest with
    | nil =>
      refine ⟨[], ⟨rfl, ?_⟩, by simp [CapsDots.loop, upperPositions, titlePositions]⟩
      intro x t y h; simp at h
    | cons c cs =>
      rw [CapsDots.loop]
      split
      · rename_i h
        obtain ⟨s, h1, h2⟩ := (stands_iff _ _).1 h
        have hs : s ≠ [] := by rintro rfl; exact wf.begcapsword h1
        have hs' := List.length_pos_iff.2 hs
        have hd := drop_of_prefix h2
        obtain ⟨ls, closed, r, w1, w2, w3⟩ := caps_word d ((c :: cs).drop s.length) (pos + s.length)
        simp only [h1, Option.getD_some, w3]
        have hl : (c :: cs).length = s.length + (ls.length + ((closer d closed).length + r.length)) := by
          rw [← hd, w1]; simp
        obtain ⟨ts, ⟨t1, t2⟩, t3⟩ := ih r (pos + s.length + ls.length + (closer d closed).length) (by omega)
        rw [t3]
        have htx : CapsTok.text d (.word ls closed) = s ++ ls ++ closer d closed := by simp [CapsTok.text, h1]
        refine ⟨.word ls closed :: ts, ⟨?_, capsRight_cons ⟨by simp [h1], ?_⟩ t2⟩, ?_⟩
        · have : capsText d (.word ls closed :: ts) = CapsTok.text d (.word ls closed) ++ capsText d ts := by simp [capsText]
          rw [this, t1, htx, ← hd, w1]; simp
        · rw [t1]; exact w2
        · have : pos + s.length + ls.length + (closer d closed).length = pos + (CapsTok.text d (.word ls closed)).length := by
            rw [htx]; simp; omega
          simp [upperPositions, titlePositions, this, h1]
      · rename_i h
        have hb : ¬ Stands d.begcapsword (c :: cs) := fun h' => h ((stands_iff _ _).2 h')
        split
        · rename_i h
          obtain ⟨s, h1, h2⟩ := (stands_iff _ _).1 h
          have hs : s ≠ [] := by rintro rfl; exact wf.capsletter h1
          have hs' := List.length_pos_iff.2 hs
          have hd := drop_of_prefix h2
          have hl : (c :: cs).length = s.length + ((c :: cs).drop s.length).length := by
            rw [← List.length_append, hd]
          obtain ⟨ts, ⟨t1, t2⟩, t3⟩ := ih ((c :: cs).drop s.length) (pos + s.length) (by omega)
          simp only [h1, Option.getD_some]
          rw [t3]
          have htx : CapsTok.text d .mark = s := by simp [CapsTok.text, h1]
          refine ⟨.mark :: ts, ⟨?_, capsRight_cons ⟨by simp [h1], ?_⟩ t2⟩, ?_⟩
          · have : capsText d (.mark :: ts) = CapsTok.text d .mark ++ capsText d ts := by simp [capsText]
            rw [this, t1, htx, hd]
          · rw [t1, htx, hd]; exact hb
          · simp [upperPositions, titlePositions, htx, t1]
        · rename_i h
          have hm : ¬ Stands d.capsletter (c :: cs) := fun h' => h ((stands_iff _ _).2 h')
          obtain ⟨ts, ⟨t1, t2⟩, t3⟩ := ih cs (pos + 1) (by simp at hlen ⊢; omega)
          refine ⟨.cell c :: ts, ⟨?_, capsRight_cons ?_ t2⟩, ?_⟩
          · have : capsText d (.cell c :: ts) = CapsTok.text d (.cell c) ++ capsText d ts := by simp [capsText]
            rw [this, t1]; rfl
          · rw [t1]; exact ⟨hb, hm⟩
          · rw [t3]; simp [upperPositions, titlePositions, CapsTok.text]

theorem stands_closer {d : CapsDots} {ls : Text} {after : Text} (h : CapsWord d ls true after) : Stands d.endcapsword after := by
  simpa using h.ends

theorem capsWord_length {d : CapsDots} {ls ls' : Text} {b b' : Bool} {after after' : Text} (h : CapsWord d ls b after)
    (h' : CapsWord d ls' b' after') (e : ls ++ after = ls' ++ after') : ¬ ls.length < ls'.length := by
  intro hlt
  have hpre : ls' = ls ++ ls'.drop ls.length := by
    have h1 : ls = (ls' ++ after').take ls.length := by rw [← e]; simp
    rw [List.take_append_of_le_length (by omega)] at h1
    conv => lhs; rw [← List.take_append_drop ls.length ls']
    rw [← h1]
  cases hd : ls'.drop ls.length with
  | nil => have := congrArg List.length hd; simp at this; omega
  | cons c y =>
    rw [hd] at hpre
    have ha : after = c :: y ++ after' := by
      rw [hpre, List.append_assoc] at e
      exact List.append_cancel_left e
    have n1 := h'.inside ls c y hpre
    have n2 := h'.letters c (by rw [hpre]; simp)
    have := h.ends
    cases b with
    | true => rw [if_pos rfl, ha] at this; exact n1 this
    | false =>
      rw [if_neg (by simp), ha] at this
      exact this.2 c rfl n2

theorem capsReading_unique {d : CapsDots} (wf : d.Wf) : ∀ (ts us : List CapsTok), capsText d ts = capsText d us →
    (∀ x t y, ts = x ++ t :: y → t.Right d (capsText d y)) →
    (∀ x t y, us = x ++ t :: y → t.Right d (capsText d y)) → ts = us := by
  have hpos : ∀ t r, CapsTok.Right d t r → t.text d ≠ [] := by
    intro t r h
    cases t with
    | word ls closed =>
      have := h.1
      cases hb : d.begcapsword with
      | none => exact absurd hb this
      | some s =>
        intro h
        simp [CapsTok.text, hb] at h
        exact wf.begcapsword (by rw [hb, h.1])
    | mark =>
      have := h.1
      cases hb : d.capsletter with
      | none => exact absurd hb this
      | some s =>
        intro h
        simp [CapsTok.text, hb] at h
        exact wf.capsletter (by rw [hb, h])
    | cell c => simp [CapsTok.text]
  have hword : ∀ ls b r, CapsTok.Right d (.word ls b) r → Stands d.begcapsword (CapsTok.text d (.word ls b) ++ r) := by
    intro ls b r h
    cases hb : d.begcapsword with
    | none => exact absurd hb h.1
    | some s => exact ⟨s, rfl, by simp [CapsTok.text, hb]⟩
  have hmark : ∀ r, CapsTok.Right d .mark r → Stands d.capsletter (CapsTok.text d .mark ++ r) := by
    intro r h
    cases hb : d.capsletter with
    | none => exact absurd hb h.1
    | some s => exact ⟨s, rfl, by simp [CapsTok.text, hb]⟩
  intro ts
  induction ts with
  | nil =>
    intro us h _ h2
    cases us with
    | nil => rfl
    | cons u us =>
      exfalso
      have := hpos _ _ (h2 [] u us rfl)
      simp [capsText] at h
      exact this h.1
  | cons t ts ih =>
    intro us h h1 h2
    cases us with
    | nil =>
      exfalso
      have := hpos _ _ (h1 [] t ts rfl)
      simp [capsText] at h
      exact this h.1
    | cons u us =>
      have r1 := h1 [] t ts rfl
      have r2 := h2 [] u us rfl
      have hh : capsText d (t :: ts) = t.text d ++ capsText d ts := by simp [capsText]
      have hh' : capsText d (u :: us) = u.text d ++ capsText d us := by simp [capsText]
      rw [hh, hh'] at h
      have htu : t = u := by
        cases t with
        | word ls b =>
          cases u with
          | word ls' b' =>
            have e : ls ++ (closer d b ++ capsText d ts) = ls' ++ (closer d b' ++ capsText d us) := by
              simp only [CapsTok.text, List.append_assoc] at h
              exact List.append_cancel_left h
            have n1 := capsWord_length r1.2 r2.2 e
            have n2 := capsWord_length r2.2 r1.2 e.symm
            have e2 := List.append_inj e (by omega)
            obtain ⟨rfl, e2⟩ := e2
            have q1 := r1.2.ends
            have q2 := r2.2.ends
            cases b <;> cases b' <;> simp only [if_true, Bool.false_eq_true, if_false] at q1 q2
            · rfl
            · rw [e2] at q1; exact absurd q2 q1.1
            · rw [← e2] at q2; exact absurd q1 q2.1
            · rfl
          | mark => exact absurd (h ▸ hword _ _ _ r1) r2.2
          | cell c => exact absurd (h ▸ hword _ _ _ r1) r2.1
        | mark =>
          cases u with
          | word ls' b' => exact absurd (h ▸ hword _ _ _ r2) r1.2
          | mark => rfl
          | cell c => exact absurd (h ▸ hmark _ r1) r2.2
        | cell c =>
          cases u with
          | word ls' b' => exact absurd (h ▸ hword _ _ _ r2) r1.1
          | mark => exact absurd (h ▸ hmark _ r2) r1.2
          | cell c' =>
            simp only [CapsTok.text, List.singleton_append, List.cons.injEq] at h
            rw [h.1]
      subst htu
      rw [ih us (List.append_cancel_left h)]
      · intro x v y e; subst e; exact h1 (t :: x) v y rfl
      · intro x v y e; subst e; exact h2 (t :: x) v y rfl

/-! ## The constraints of a text -/

theorem digitPositions_lt (d : NumDots) (ts : List NumTok) : ∀ p ∈ digitPositions d 0 ts, p < (numText d ts).length := by
  intro p hp
  obtain ⟨x, c, y, rfl, rfl⟩ := (mem_digitPositions d ts 0 p).1 hp
  simp [numText, NumTok.text]

/-- **C40**, numbers: every braille text has exactly one reading, and the constrainer marks exactly the cells read as digits:
those that follow a number sign (not itself preceded by a letter cell) with nothing but digit cells in between. -/
theorem C40_digits_after_sign (d : NumDots) (wf : d.Wf) (input : Text) :
    ∃ flags ts, d.compute input = .ok flags ∧ flags.length = input.length ∧ NumReading d input ts ∧
      (∀ ts', NumReading d input ts' → ts' = ts) ∧
      ∀ p, flagAt flags p = true ↔ ∃ x c y, ts = x ++ .digit c :: y ∧ p = (numText d x).length := by
  obtain ⟨ts, h1, h2, h3⟩ := num_loop wf (input.length + 1) input [] 0 none false (by omega) (by simp [numText])
    (by simp [not_numOpen_nil])
  obtain ⟨v, m1, m2, m3⟩ := markAll_spec (List.replicate input.length false) (digitPositions d 0 ts) (by
    intro p hp; have := digitPositions_lt d ts p hp; simpa [h1] using this)
  refine ⟨v, ts, ?_, by simpa using m2, ⟨h1, by simpa using h2⟩, ?_, ?_⟩
  · unfold NumDots.compute; rw [h3]; exact m1
  · intro ts' h'
    exact numReading_unique wf ts' ts [] (by rw [h'.text, h1]) (by simpa using h'.right) h2
  · intro p
    unfold flagAt
    rw [m3 p, flagAt_replicate, Bool.false_or, decide_eq_true_eq, mem_digitPositions]
    simp

/-- **C40**, capitals: every braille text has exactly one reading; the constrainer marks as upper-case exactly the letters of
capitalised words, and as title-case exactly the cells right after the sign of a single capital. -/
theorem C40_capital_words (d : CapsDots) (wf : d.Wf) (input : Text) :
    ∃ upper title ts, d.compute input = .ok (upper, title) ∧ upper.length = input.length ∧ title.length = input.length ∧
      CapsReading d input ts ∧ (∀ ts', CapsReading d input ts' → ts' = ts) ∧
      (∀ p, flagAt upper p = true ↔ ∃ x ls closed y, ts = x ++ .word ls closed :: y ∧
        (capsText d x).length + (d.begcapsword.getD []).length ≤ p ∧
        p < (capsText d x).length + (d.begcapsword.getD []).length + ls.length) ∧
      (∀ p, flagAt title p = true ↔ p < input.length ∧ ∃ x y, ts = x ++ .mark :: y ∧ p = (capsText d (x ++ [.mark])).length) := by
  obtain ⟨ts, hr, h3⟩ := caps_loop wf (input.length + 1) input 0 (by omega)
  have happ : ∀ a b, capsText d (a ++ b) = capsText d a ++ capsText d b := fun a b => by simp [capsText]
  obtain ⟨u, m1, m2, m3⟩ := markAll_spec (List.replicate input.length false) (upperPositions d 0 ts) (by
    intro p hp
    obtain ⟨x, ls, closed, y, rfl, h4, h5⟩ := (mem_upperPositions d ts 0 p).1 hp
    have := hr.text
    simp only [List.length_replicate]
    rw [← this, happ]
    simp [capsText, CapsTok.text] at h4 h5 ⊢
    omega)
  obtain ⟨v, n1, n2, n3⟩ := markAll_spec (List.replicate input.length false) (titlePositions d 0 ts) (by
    intro p hp
    obtain ⟨x, y, rfl, h4, rfl⟩ := (mem_titlePositions d ts 0 p).1 hp
    have := hr.text
    have h5 := List.length_pos_iff.2 h4
    simp only [List.length_replicate]
    rw [← this, show x ++ CapsTok.mark :: y = (x ++ [.mark]) ++ y by simp, happ _ y, List.length_append]
    omega)
  refine ⟨u, v, ts, ?_, by simpa using m2, by simpa using n2, hr, ?_, ?_, ?_⟩
  · unfold CapsDots.compute; rw [h3]; simp only; rw [m1, n1]
  · intro ts' h'
    exact capsReading_unique wf ts' ts (by rw [h'.text, hr.text]) h'.right hr.right
  · intro p
    unfold flagAt
    rw [m3 p, flagAt_replicate, Bool.false_or, decide_eq_true_eq, mem_upperPositions]
    simp
  · intro p
    unfold flagAt
    rw [n3 p, flagAt_replicate, Bool.false_or, decide_eq_true_eq, mem_titlePositions]
    constructor
    · rintro ⟨x, y, rfl, h4, rfl⟩
      refine ⟨?_, x, y, rfl, by simp⟩
      have h5 := List.length_pos_iff.2 h4
      rw [← hr.text, show x ++ CapsTok.mark :: y = (x ++ [.mark]) ++ y by simp, happ _ y, List.length_append]
      omega
    · rintro ⟨hp, x, y, rfl, rfl⟩
      refine ⟨x, y, rfl, ?_, by simp⟩
      intro h4
      rw [← hr.text, show x ++ CapsTok.mark :: y = (x ++ [.mark]) ++ y by simp, happ _ y, h4] at hp
      simp at hp

/-- The constraints a translation works with are the flags above. -/
theorem precompute_digits {c : Constrainers} {input : Text} {spans : List Span} {cons : Constraints} {d : NumDots}
    (h : c.precompute input spans = .ok cons) (hd : c.backNumeric = some d) :
    ∃ flags, d.compute input = .ok flags ∧ cons.preferDigit = flagAt flags := by
  unfold Constrainers.precompute at h
  simp only [hd] at h
  repeat' split at h
  all_goals first | cases h | skip
  all_goals exact ⟨_, by assumption, rfl⟩

theorem precompute_caps {c : Constrainers} {input : Text} {spans : List Span} {cons : Constraints} {d : CapsDots}
    (h : c.precompute input spans = .ok cons) (hd : c.caps = some d) :
    ∃ upper title, d.compute input = .ok (upper, title) ∧ cons.uppercase = flagAt upper ∧ cons.titlecase = flagAt title := by
  unfold Constrainers.precompute at h
  simp only [hd] at h
  repeat' split at h
  all_goals first | cases h | skip
  all_goals exact ⟨_, _, by assumption, rfl, rfl⟩

end Louis
