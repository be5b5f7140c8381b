import Verif.Spec.Dic
import Verif.Props.Hyphenation
import Verif.Props.Library
import Verif.Props.OperandPieces
import Verif.Model.Lexer

/-!
# C24, files: the grammar of hyphenation files
-/

namespace Louis

/-! ## Pieces -/

theorem trim_eq (l : Text) : trim l = trimText isWhitespace l := rfl

theorem trim_iff (l t : Text) : Trimmed isWhitespace l t ↔ trim l = t := by
  constructor
  · intro h; rw [trim_eq]; exact trimmed_unique (trim_spec _ _) h
  · rintro rfl; rw [trim_eq]; exact trim_spec _ _

theorem digit10_isDigit (c : Char) : digit10 c = if isDigit c then some (c.toNat - 48) else none := by
  unfold digit10
  have e : ('0' ≤ c ∧ c ≤ '9') ↔ isDigit c = true := by
    simp only [isDigit, Bool.and_eq_true, decide_eq_true_eq]; exact Iff.rfl
  by_cases h : '0' ≤ c ∧ c ≤ '9'
  · rw [if_pos h, if_pos (e.1 h)]
  · rw [if_neg h, if_neg (fun x => h (e.2 x))]

theorem digitChar_iff (c : Char) (d : Nat) : DigitChar c d ↔ digit10 c = some d := by
  unfold DigitChar
  rw [digit_lookup, digit10_isDigit]
  by_cases h : isDigit c = true
  · rw [if_pos h]
    simp only [h, true_and, Option.some.injEq]
    exact eq_comm
  · rw [if_neg h]; simp [h]

theorem decFrom_cons (acc : Nat) (c : Char) (ds : Text) :
    decFrom acc (c :: ds) = decFrom (10 * acc + (c.toNat - '0'.toNat)) ds := by
  exact id rfl

theorem digitStep (acc : Nat) (c : Char) : (digit10 c).map (10 * acc + ·) =
    if isDigit c then some (10 * acc + (c.toNat - '0'.toNat)) else none := by
  have e : '0'.toNat = 48 := by decide
  rw [digit10_isDigit, e]
  split <;> rfl

theorem digitsFold : ∀ (ds : Text) (acc : Nat),
    ds.foldl (fun acc c => acc.bind fun a => (digit10 c).map (10 * a + ·)) (some acc) =
      if (∀ c ∈ ds, isDigit c = true) then some (decFrom acc ds) else none := by
  intro ds
  have dead : ∀ (l : Text), l.foldl (fun acc c => acc.bind fun a => (digit10 c).map (10 * a + ·)) none = none := by
    intro l; induction l with
    | nil => rfl
    | cons x l ih => rw [List.foldl_cons]; exact ih
  induction ds with
  | nil =>
    intro acc
    rw [if_pos (by intro c hc; cases hc)]; rfl
  | cons c ds ih =>
    intro acc
    rw [List.foldl_cons, Option.bind_some, digitStep, decFrom_cons]
    by_cases h : isDigit c = true
    · rw [if_pos h, ih]
      by_cases h' : ∀ x ∈ ds, isDigit x = true
      · rw [if_pos h', if_pos]
        intro x hx
        rcases List.mem_cons.1 hx with rfl | hx
        · exact h
        · exact h' x hx
      · rw [if_neg h', if_neg]
        exact fun hx => h' (fun x hm => hx x (List.mem_cons_of_mem _ hm))
    · rw [if_neg h, if_neg (fun hx => h (hx c (by simp)))]
      exact dead _

theorem digitsValue_iff (ds : Text) (n : Nat) : digitsValue ds = some n ↔ DecValue ds n := by
  rw [decValue_iff]
  have : digitsValue ds = if (∀ c ∈ ds, isDigit c = true) then some (decFrom 0 ds) else none := by
    rw [← digitsFold]
    cases ds <;> rfl
  rw [this]
  by_cases h : ∀ c ∈ ds, isDigit c = true
  · simp [h]
  · simp [h]

theorem parseUsize_iff (s : Text) (n : Nat) : parseUsize s = some n ↔ SizeSrc s n := by
  have main : ∀ ds : Text, (if ds = [] then none else
      match digitsValue ds with
      | some n => if n < 2 ^ 64 then some n else none
      | none => none) = some n ↔ ds ≠ [] ∧ DecValue ds n ∧ n < 2 ^ 64 := by
    intro ds
    rw [← digitsValue_iff]
    by_cases h : ds = []
    · simp [h]
    · rw [if_neg h]
      cases hv : digitsValue ds with
      | none => simp
      | some m =>
        simp only [Option.some.injEq]
        by_cases hm : m < 2 ^ 64
        · rw [if_pos hm]; simp only [Option.some.injEq]
          exact ⟨fun e => ⟨h, e, e ▸ hm⟩, fun e => e.2.1⟩
        · rw [if_neg hm]
          exact ⟨(fun e => nomatch e), fun e => absurd (e.2.1 ▸ e.2.2) hm⟩
  have plus : ∀ ds, ¬ DecValue ('+' :: ds) n := by
    intro ds h
    rw [decValue_iff] at h
    have := h.1 '+' (by simp)
    exact absurd this (by decide)
  unfold parseUsize SizeSrc
  split
  · rename_i ds
    refine (main ds).trans ?_
    constructor
    · rintro ⟨a, b, c⟩; exact ⟨ds, .inr rfl, a, b, c⟩
    · rintro ⟨ds', e | e, a, b, c⟩
      · exact absurd (e ▸ b) (plus ds)
      · cases e; exact ⟨a, b, c⟩
  · rename_i hne
    refine (main s).trans ?_
    constructor
    · rintro ⟨a, b, c⟩; exact ⟨s, .inl rfl, a, b, c⟩
    · rintro ⟨ds', e | e, a, b, c⟩
      · subst e; exact ⟨a, b, c⟩
      · exact absurd e (hne ds')

/-- Without distinction of case. -/
theorem sameLetter_iff (a b : Char) : SameLetter a b ↔ asciiLow a = asciiLow b := by
  have low : ∀ c : Char, (65 ≤ c.toNat ∧ c.toNat ≤ 90 → (asciiLow c).toNat = c.toNat + 32) ∧
      (¬ (65 ≤ c.toNat ∧ c.toNat ≤ 90) → asciiLow c = c) := by
    intro c
    have e : ('A' ≤ c ∧ c ≤ 'Z') ↔ (65 ≤ c.toNat ∧ c.toNat ≤ 90) := Iff.rfl
    unfold asciiLow
    refine ⟨fun h => ?_, fun h => by rw [if_neg (fun x => h (e.1 x))]⟩
    rw [if_pos (e.2 h)]
    have : (c.toNat + 32).isValidChar := by left; omega
    exact toNat_ofNat_valid this
  have inj : ∀ x y : Char, x.toNat = y.toNat → x = y := by
    intro x y h
    rw [← Char.ofNat_toNat x, ← Char.ofNat_toNat y, h]
  unfold SameLetter
  by_cases ha : 65 ≤ a.toNat ∧ a.toNat ≤ 90 <;> by_cases hb : 65 ≤ b.toNat ∧ b.toNat ≤ 90
  · have h1 := (low a).1 ha; have h2 := (low b).1 hb
    constructor
    · rintro (rfl | h | h)
      · rfl
      · omega
      · omega
    · intro h; left; apply inj; rw [h] at h1; omega
  · have h1 := (low a).1 ha; have h2 := (low b).2 hb
    rw [h2]
    constructor
    · rintro (rfl | h | h)
      · exact absurd ha hb
      · apply inj; omega
      · omega
    · intro h; right; left; rw [h] at h1; omega
  · have h1 := (low a).2 ha; have h2 := (low b).1 hb
    rw [h1]
    constructor
    · rintro (rfl | h | h)
      · exact absurd hb ha
      · omega
      · apply inj; omega
    · intro h; right; right; rw [← h] at h2; omega
  · have h1 := (low a).2 ha; have h2 := (low b).2 hb
    rw [h1, h2]
    constructor
    · rintro (rfl | h | h)
      · rfl
      · omega
      · omega
    · exact .inl

theorem sameIgnoringCase_iff (s t : Text) : SameIgnoringCase s t ↔ eqIgnoreCase s t = true := by
  unfold eqIgnoreCase
  rw [beq_iff_eq]
  constructor
  · intro h
    induction h with
    | nil => rfl
    | cons hab _ ih => simp [(sameLetter_iff _ _).1 hab, ih]
  · intro h
    induction s generalizing t with
    | nil => cases t with
      | nil => exact .nil
      | cons _ _ => simp at h
    | cons a s ih => cases t with
      | nil => simp at h
      | cons b t =>
        simp only [List.map_cons, List.cons.injEq] at h
        exact .cons ((sameLetter_iff _ _).2 h.1) (ih t h.2)

/-! ## Patterns -/

theorem patternSrc_loop {s ls : Text} {vs : List Nat} (h : PatternSrc s ls vs) :
    ∀ (done : Text) (v : Nat) (tally : List Nat), patternLoop s done (v :: tally) =
      (done ++ ls, tally.reverse ++ (match s with
        | [] => [v]
        | c :: _ => if (digit10 c).isSome then vs else v :: vs.tail)) := by
  induction h with
  | done => intro done v tally; simp [patternLoop]
  | @letter c s ls vs hc h ih =>
    intro done v tally
    have hn : digit10 c = none := by
      cases e : digit10 c with
      | none => rfl
      | some d => exact absurd ((digitChar_iff c d).2 e) (hc d)
    rw [patternLoop, hn]
    simp only
    rw [ih]
    simp only [hn, Option.isSome_none, Bool.false_eq_true, if_false, List.tail_cons, List.reverse_cons, List.append_assoc,
      List.singleton_append, Prod.mk.injEq, true_and]
    refine congrArg (fun x => tally.reverse ++ v :: x) ?_
    cases h with
    | done => rfl
    | letter hc' h' => simp [show digit10 _ = none from by
        rename_i c' _ _ _
        cases e : digit10 c' with
        | none => rfl
        | some d => exact absurd ((digitChar_iff c' d).2 e) (hc' d)]
    | digit hc' _ _ => simp [(digitChar_iff _ _).1 hc']
    | overridden hc' _ _ => simp [(digitChar_iff _ _).1 hc']
  | @digit c d s ls vs hc hs h ih =>
    intro done v tally
    have hn := (digitChar_iff c d).1 hc
    rw [patternLoop, hn]
    simp only [List.tail_cons]
    rw [ih]
    simp only [Option.isSome_some, if_true, hn]
    refine congrArg (fun x => (done ++ ls, tally.reverse ++ x)) ?_
    cases s with
    | nil =>
      cases h with
      | done => rfl
    | cons x s =>
      have : digit10 x = none := by
        cases e : digit10 x with
        | none => rfl
        | some e' => exact absurd ((digitChar_iff x e').2 e) (hs x rfl e')
      simp [this]
  | @overridden c d x e s ls vs hc hx h ih =>
    intro done v tally
    have hn := (digitChar_iff c d).1 hc
    have hx' := (digitChar_iff x e).1 hx
    rw [patternLoop, hn]
    simp only [List.tail_cons]
    rw [ih]
    simp [hn, hx']

theorem patternSrc_parts {s ls : Text} {vs : List Nat} (h : PatternSrc s ls vs) : patternLoop s [] [0] = (ls, vs) := by
  rw [patternSrc_loop h]
  cases h with
  | done => rfl
  | letter hc h' =>
    rename_i c _ _ _
    have : digit10 c = none := by
      cases e : digit10 c with
      | none => rfl
      | some d => exact absurd ((digitChar_iff c d).2 e) (hc d)
    simp [this]
  | digit hc _ _ => simp [(digitChar_iff _ _).1 hc]
  | overridden hc _ _ => simp [(digitChar_iff _ _).1 hc]

theorem patternSrc_exists (s : Text) : ∃ ls vs, PatternSrc s ls vs := by
  induction s with
  | nil => exact ⟨_, _, .done⟩
  | cons c s ih =>
    obtain ⟨ls, vs, h⟩ := ih
    cases hc : digit10 c with
    | none =>
      refine ⟨_, _, .letter (fun d hd => ?_) h⟩
      rw [digitChar_iff, hc] at hd; cases hd
    | some d =>
      cases s with
      | nil => cases h with
        | done => exact ⟨_, _, .digit ((digitChar_iff c d).2 hc) (by simp) .done⟩
      | cons x s =>
        cases hx : digit10 x with
        | some e => exact ⟨_, _, .overridden ((digitChar_iff c d).2 hc) ((digitChar_iff x e).2 hx) h⟩
        | none =>
          have hno : ∀ e, ¬ DigitChar x e := by
            intro e he; rw [digitChar_iff, hx] at he; cases he
          cases h with
          | letter hx' h' =>
            exact ⟨_, _, .digit ((digitChar_iff c d).2 hc) (by simpa using hno) (.letter hx' h')⟩
          | digit hx' _ _ => exact absurd hx' (hno _)
          | overridden hx' _ _ => exact absurd hx' (hno _)

theorem parsePattern_iff (s ls : Text) (vs : List Nat) :
    parsePattern s = some (ls, vs) ↔ PatternSrc s ls vs ∧ ∃ v ∈ vs, v ≠ 0 := by
  obtain ⟨ls', vs', h⟩ := patternSrc_exists s
  have e := patternSrc_parts h
  have key : ∀ {ls vs}, PatternSrc s ls vs → ls = ls' ∧ vs = vs' := by
    intro ls vs h2
    have := (patternSrc_parts h2).symm.trans e
    simpa using this
  unfold parsePattern
  rw [e]
  simp only
  by_cases hv : vs'.all (· == 0) = true
  · rw [if_pos hv]
    refine ⟨(fun h => nomatch h), ?_⟩
    rintro ⟨h2, v, hm, hne⟩
    obtain ⟨rfl, rfl⟩ := key h2
    rw [List.all_eq_true] at hv
    exact absurd (by simpa using hv v hm) hne
  · rw [if_neg hv]
    constructor
    · intro h3
      simp only [Option.some.injEq, Prod.mk.injEq] at h3
      obtain ⟨rfl, rfl⟩ := h3
      refine ⟨h, ?_⟩
      simpa [List.all_eq_true] using hv
    · rintro ⟨h2, -⟩
      obtain ⟨rfl, rfl⟩ := key h2
      rfl

/-! ## Lines -/

/-- What an item does to the table read so far. -/
def DicItem.apply (h : Hyphenation) : DicItem → Hyphenation
  | .nothing => h
  | .left n => { h with leftMin := n }
  | .right n => { h with rightMin := n }
  | .pattern ls vs => { h with patterns := (ls, vs) :: h.patterns }

theorem stripPrefix_iff (p l r : Text) : stripPrefix p l = some r ↔ l = p ++ r := by
  unfold stripPrefix
  by_cases h : p.isPrefixOf l = true
  · rw [if_pos h]
    obtain ⟨t, rfl⟩ := List.isPrefixOf_iff_prefix.1 h
    simp
  · rw [if_neg h]
    refine ⟨(fun h => nomatch h), ?_⟩
    rintro rfl
    exact absurd (List.isPrefixOf_iff_prefix.2 ⟨r, rfl⟩) h

theorem stripPrefix_none (p l : Text) : stripPrefix p l = none ↔ ∀ r, l ≠ p ++ r := by
  constructor
  · intro h r e
    rw [(stripPrefix_iff p l r).2 e] at h; cases h
  · intro h
    cases e : stripPrefix p l with
    | none => rfl
    | some r => exact absurd ((stripPrefix_iff p l r).1 e) (h r)

theorem same_head {l t : Text} (h : SameIgnoringCase l t) (a b : Char) (ha : l.head? = some a) (hb : t.head? = some b) :
    SameLetter a b := by
  cases h with
  | nil => cases ha
  | cons h _ => cases ha; cases hb; exact h

instance (a b : Char) : Decidable (SameLetter a b) := by unfold SameLetter; infer_instance

theorem dicLine_iff (h h' : Hyphenation) (first : Bool) (raw t : Text) (ht : Trimmed isWhitespace raw t) :
    dicLine h first raw = .ok h' ↔ ∃ i, DicLine first t i ∧ h' = i.apply h := by
  have et := (trim_iff raw t).1 ht
  unfold dicLine
  simp only [et]
  by_cases h0 : t = []
  · subst h0
    simp only [if_true]
    constructor
    · intro e; cases e; exact ⟨_, .blank, rfl⟩
    · rintro ⟨i, hi, rfl⟩
      generalize hl : ([] : Text) = l at hi
      cases hi with
      | blank => rfl
      | encoding => rfl
      | comment => rfl
      | left => simp at hl
      | right => simp at hl
      | pattern _ _ _ _ _ hp hv =>
        subst hl
        cases hp
        simp at hv
  rw [if_neg h0]
  by_cases h1 : first = true ∧ SameIgnoringCase t "UTF-8".toList
  · have e1 : (first && eqIgnoreCase t "UTF-8".toList) = true := by
      rw [Bool.and_eq_true]; exact ⟨h1.1, (sameIgnoringCase_iff _ _).1 h1.2⟩
    rw [if_pos e1]
    constructor
    · intro e; cases e; exact ⟨_, .encoding h1.1 h1.2, rfl⟩
    · rintro ⟨i, hi, rfl⟩
      cases hi with
      | blank => rfl
      | encoding => rfl
      | comment => rfl
      | left => exact absurd (same_head h1.2 'L' 'U' rfl rfl) (by decide)
      | right => exact absurd (same_head h1.2 'R' 'U' rfl rfl) (by decide)
      | pattern hn => exact absurd h1.2 (hn h1.1).1
  have e1 : ¬ (first && eqIgnoreCase t "UTF-8".toList) = true := by
    rw [Bool.and_eq_true]; exact fun x => h1 ⟨x.1, (sameIgnoringCase_iff _ _).2 x.2⟩
  rw [if_neg e1]
  by_cases h2 : first = true ∧ SameIgnoringCase t "ISO8859-1".toList
  · have e2 : (first && eqIgnoreCase t "ISO8859-1".toList) = true := by
      rw [Bool.and_eq_true]; exact ⟨h2.1, (sameIgnoringCase_iff _ _).1 h2.2⟩
    rw [if_pos e2]
    refine ⟨(fun e => nomatch e), ?_⟩
    rintro ⟨i, hi, rfl⟩
    cases hi with
    | blank => exact absurd rfl h0
    | encoding a b => exact absurd ⟨a, b⟩ h1
    | comment hc =>
      rcases hc with rfl | rfl
      · exact absurd (same_head h2.2 '#' 'I' rfl rfl) (by decide)
      · exact absurd (same_head h2.2 '%' 'I' rfl rfl) (by decide)
    | left => exact absurd (same_head h2.2 'L' 'I' rfl rfl) (by decide)
    | right => exact absurd (same_head h2.2 'R' 'I' rfl rfl) (by decide)
    | pattern hn => exact absurd h2.2 (hn h2.1).2
  have e2 : ¬ (first && eqIgnoreCase t "ISO8859-1".toList) = true := by
    rw [Bool.and_eq_true]; exact fun x => h2 ⟨x.1, (sameIgnoringCase_iff _ _).2 x.2⟩
  rw [if_neg e2]
  by_cases h3 : t.head? = some '#' ∨ t.head? = some '%'
  · rw [if_pos h3]
    constructor
    · intro e; cases e
      cases t with
      | nil => exact absurd rfl h0
      | cons c l => exact ⟨_, .comment (by simpa using h3), rfl⟩
    · rintro ⟨i, hi, rfl⟩
      cases hi with
      | blank => rfl
      | encoding => rfl
      | comment => rfl
      | left => simp at h3
      | right => simp at h3
      | pattern _ ha hb => rcases h3 with h3 | h3 <;> contradiction
  rw [if_neg h3]
  cases h4 : stripPrefix "LEFTHYPHENMIN".toList t with
  | some r =>
    have e4 := (stripPrefix_iff _ _ _).1 h4
    have et' := trim_spec isWhitespace r
    rw [← trim_eq] at et'
    constructor
    · intro e
      cases e5 : parseUsize (trim r) with
      | none => simp [e5] at e
      | some n =>
        simp only [e5, Except.ok.injEq] at e
        exact ⟨.left n, e4 ▸ .left et' ((parseUsize_iff _ _).1 e5), e ▸ rfl⟩
    · rintro ⟨i, hi, rfl⟩
      cases hi with
      | blank => simp at e4
      | encoding a b => exact absurd ⟨a, b⟩ h1
      | comment hc => exact absurd (by simpa using hc) h3
      | @left r' t' n ht' hn =>
        have : r' = r := List.append_cancel_left e4
        subst this
        have := (trim_iff _ _).1 ht'
        subst this
        simp only [(parseUsize_iff _ _).2 hn]
        rfl
      | right => simp at e4
      | pattern _ _ _ hl => exact absurd e4 (hl r)
  | none =>
    have e4 := (stripPrefix_none _ _).1 h4
    cases h5 : stripPrefix "RIGHTHYPHENMIN".toList t with
    | some r =>
      have e5 := (stripPrefix_iff _ _ _).1 h5
      have et' := trim_spec isWhitespace r
      rw [← trim_eq] at et'
      constructor
      · intro e
        cases e6 : parseUsize (trim r) with
        | none => simp [e6] at e
        | some n =>
          simp only [e6, Except.ok.injEq] at e
          exact ⟨.right n, e5 ▸ .right et' ((parseUsize_iff _ _).1 e6), e ▸ rfl⟩
      · rintro ⟨i, hi, rfl⟩
        cases hi with
        | blank => simp at e5
        | encoding a b => exact absurd ⟨a, b⟩ h1
        | comment hc => exact absurd (by simpa using hc) h3
        | left => simp at e5
        | @right r' t' n ht' hn =>
          have : r' = r := List.append_cancel_left e5
          subst this
          have := (trim_iff _ _).1 ht'
          subst this
          simp only [(parseUsize_iff _ _).2 hn]
          rfl
        | pattern _ _ _ _ hl => exact absurd e5 (hl r)
    | none =>
      have e5 := (stripPrefix_none _ _).1 h5
      constructor
      · intro e
        cases e6 : parsePattern t with
        | none => simp [e6] at e
        | some p =>
          obtain ⟨ls, vs⟩ := p
          simp only [e6, Except.ok.injEq] at e
          obtain ⟨hp, hv⟩ := (parsePattern_iff _ _ _).1 e6
          exact ⟨.pattern ls vs, .pattern (fun hf => ⟨fun x => h1 ⟨hf, x⟩, fun x => h2 ⟨hf, x⟩⟩)
            (fun x => h3 (.inl x)) (fun x => h3 (.inr x)) e4 e5 hp hv, e ▸ rfl⟩
      · rintro ⟨i, hi, rfl⟩
        cases hi with
        | blank => exact absurd rfl h0
        | encoding a b => exact absurd ⟨a, b⟩ h1
        | comment hc => exact absurd (by simpa using hc) h3
        | left => exact absurd rfl (e4 _)
        | right => exact absurd rfl (e5 _)
        | pattern _ _ _ _ _ hp hv =>
          simp only [(parsePattern_iff _ _ _).2 ⟨hp, hv⟩]
          rfl

/-! ## Files -/

theorem dicLoop_iff : ∀ (ls : List Text) (first : Bool) (h h' : Hyphenation),
    dicLoop h first ls = .ok h' ↔ ∃ is, DicLines first ls is ∧ h' = is.foldl DicItem.apply h := by
  intro ls
  induction ls with
  | nil =>
    intro first h h'
    constructor
    · intro e; cases e; exact ⟨[], .nil, rfl⟩
    · rintro ⟨is, hi, rfl⟩; cases hi; rfl
  | cons l ls ih =>
    intro first h h'
    have ht : Trimmed isWhitespace l (trim l) := (trim_iff _ _).2 rfl
    rw [dicLoop]
    constructor
    · intro e
      cases e1 : dicLine h first l with
      | error x => simp [e1] at e
      | ok h1 =>
        simp only [e1] at e
        obtain ⟨i, hi, rfl⟩ := (dicLine_iff h h1 first l _ ht).1 e1
        obtain ⟨is, his, rfl⟩ := (ih false _ h').1 e
        exact ⟨i :: is, .cons ht hi his, rfl⟩
    · rintro ⟨is, his, rfl⟩
      cases his with
      | @cons _ _ t i _ is ht' hi his =>
        rw [(dicLine_iff h _ first l t ht').2 ⟨i, hi, rfl⟩]
        exact (ih false _ _).2 ⟨is, his, rfl⟩

theorem apply_left (items : List DicItem) (h : Hyphenation) : (items.foldl DicItem.apply h).leftMin =
    ((items.filterMap fun | .left n => some n | _ => none).getLast?).getD h.leftMin := by
  induction items generalizing h with
  | nil => rfl
  | cons i items ih =>
    rw [List.foldl_cons, ih]
    cases i <;> simp [DicItem.apply, List.getLast?_cons]

theorem apply_right (items : List DicItem) (h : Hyphenation) : (items.foldl DicItem.apply h).rightMin =
    ((items.filterMap fun | .right n => some n | _ => none).getLast?).getD h.rightMin := by
  induction items generalizing h with
  | nil => rfl
  | cons i items ih =>
    rw [List.foldl_cons, ih]
    cases i <;> simp [DicItem.apply, List.getLast?_cons]

theorem apply_get (items : List DicItem) (h : Hyphenation) (key : Text) : (items.foldl DicItem.apply h).get key =
    (patternOf items key).or (h.get key) := by
  induction items generalizing h with
  | nil => simp [patternOf]
  | cons i items ih =>
    rw [List.foldl_cons, ih]
    cases i with
    | nothing => rfl
    | left => rfl
    | right => rfl
    | pattern ls vs =>
      unfold patternOf
      simp only [DicItem.apply, Hyphenation.get, List.find?_cons, List.filterMap_cons]
      by_cases hk : ls = key
      · subst hk
        simp only [BEq.rfl, if_true, Option.map_some, List.getLast?_cons]
        cases (List.filterMap (fun x => match x with
          | .pattern ls' vs => if ls' = ls then some vs else none
          | _ => none) items).getLast? <;> simp
      · have : (ls == key) = false := by simpa using hk
        simp [this, hk]

/-- **C24**, files: a hyphenation file is accepted exactly if each of its lines is blank, a comment, a setting of one of the
two minima or a pattern with a value, or (the first line) the encoding `UTF-8`; the table then has the minima of the last
lines that set them (1 if there is none) and the patterns of the file, a later one replacing an earlier one with the same
letters.  In particular a file whose first line is `ISO8859-1` is rejected. -/
theorem C24_file_grammar (source : Text) (h : Hyphenation) (e : parseDic (lines source) = .ok h) :
    ∃ items, DicLines true (lines source) items ∧ h.leftMin = leftOf items ∧ h.rightMin = rightOf items ∧
      ∀ letters, h.get letters = patternOf items letters := by
  obtain ⟨is, his, rfl⟩ := (dicLoop_iff _ _ _ _).1 e
  refine ⟨is, his, apply_left is _, apply_right is _, fun letters => ?_⟩
  rw [apply_get]
  simp [Hyphenation.get]

/-- **C24**, files: a file that consists of such lines is accepted. -/
theorem C24_file_accepted (source : Text) (items : List DicItem) (hi : DicLines true (lines source) items) :
    ∃ h, parseDic (lines source) = .ok h ∧ h.leftMin = leftOf items ∧ h.rightMin = rightOf items ∧
      ∀ letters, h.get letters = patternOf items letters := by
  refine ⟨_, (dicLoop_iff _ _ _ _).2 ⟨items, hi, rfl⟩, apply_left _ _, apply_right _ _, fun letters => ?_⟩
  rw [apply_get]
  simp [Hyphenation.get]

/-- A file with an encoding, both minima, a comment and patterns. -/
example : (parseDic (lines "utf-8\r\n% Knuth\nLEFTHYPHENMIN 2\nRIGHTHYPHENMIN  +3\n\n.ab3a\na1b2c\n.ab4a".toList)).toOption =
    some ⟨[(".aba".toList, [0, 0, 0, 4, 0]), ("abc".toList, [0, 1, 2, 0]), (".aba".toList, [0, 0, 0, 3, 0])], 2, 3⟩ := by
  decide +kernel

/-- Whatever follows, a file whose first line is `ISO8859-1` is rejected; further down the same line is a pattern. -/
theorem C24_latin1_rejected (ls : List Text) (l : Text) (hl : SameIgnoringCase l "ISO8859-1".toList) (h : Hyphenation) :
    parseDic (l :: ls) ≠ .ok h := by
  intro e
  have hnows : ∀ a b : Char, SameLetter a b → b ∈ "ISO8859-1".toList → isWhitespace a = false := by
    intro a b hab hb
    have : ∀ b ∈ "ISO8859-1".toList, 45 ≤ b.toNat ∧ b.toNat ≤ 90 := by decide
    obtain ⟨h1, h2⟩ := this b hb
    have : 45 ≤ a.toNat ∧ a.toNat ≤ 122 := by
      rcases hab with rfl | hab | hab <;> omega
    have e : isWhitespace a = false := by
      unfold isWhitespace
      simp only [Bool.or_eq_false_iff, Bool.and_eq_false_iff, decide_eq_false_iff_not, beq_eq_false_iff_ne]
      omega
    exact e
  have hall : ∀ {s t : Text}, SameIgnoringCase s t → (∀ b ∈ t, b ∈ "ISO8859-1".toList) → ∀ a ∈ s, isWhitespace a = false := by
    intro s t hst
    induction hst with
    | nil => intro _ a ha; cases ha
    | cons hab _ ih =>
      intro hb a ha
      rcases List.mem_cons.1 ha with rfl | ha
      · exact hnows _ _ hab (hb _ (by simp))
      · exact ih (fun b hb' => hb b (by simp [hb'])) a ha
  have hw := hall hl (fun b hb => hb)
  have ht : Trimmed isWhitespace l l :=
    ⟨⟨[], [], by simp, by simp, by simp⟩, fun c hc => hw c (List.mem_of_head? hc), fun c hc => hw c (List.mem_of_getLast? hc)⟩
  obtain ⟨is, his, -⟩ := (dicLoop_iff _ _ _ _).1 e
  cases his with
  | cons ht' hi _ =>
    have := trimmed_unique ht ht'
    subst this
    cases hi with
    | blank => cases hl
    | encoding a b => 
      have h1 := (sameIgnoringCase_iff _ _).1 b
      have h2 := (sameIgnoringCase_iff _ _).1 hl
      unfold eqIgnoreCase at h1 h2
      rw [beq_iff_eq] at h1 h2
      exact absurd (h1.symm.trans h2) (by decide)
    | comment hc =>
      rcases hc with rfl | rfl
      · exact absurd (same_head hl '#' 'I' rfl rfl) (by decide)
      · exact absurd (same_head hl '%' 'I' rfl rfl) (by decide)
    | left => exact absurd (same_head hl 'L' 'I' rfl rfl) (by decide)
    | right => exact absurd (same_head hl 'R' 'I' rfl rfl) (by decide)
    | pattern hn => exact absurd hl (hn rfl).2

example : SameIgnoringCase "iso8859-1".toList "ISO8859-1".toList :=
  (sameIgnoringCase_iff _ _).2 (by decide)

example : ((parseDic ["".toList, "ISO8859-1".toList]).toOption.map (·.patterns)) =
    some [("ISO-".toList, [0, 0, 0, 9, 1])] := by decide +kernel

end Louis
