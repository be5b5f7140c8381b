import Verif.Lemmas.DecEq

/-!
# C35: escape sequences

`Decodes` is the specification: a text is a sequence of plain characters and escapes, each standing for a character.
-/

namespace Louis

/-! ## Hexadecimal numbers -/

/-- The digit `c` stands for `d`. -/
def HexDigit (c : Char) (d : Nat) : Prop :=
  ['0', '1', '2', '3', '4', '5', '6', '7', '8', '9', 'a', 'b', 'c', 'd', 'e', 'f'][d]? = some c ∨
  ['0', '1', '2', '3', '4', '5', '6', '7', '8', '9', 'A', 'B', 'C', 'D', 'E', 'F'][d]? = some c

/-- The digits stand for the number. -/
inductive HexValue : Text → Nat → Prop
  | nil : HexValue [] 0
  | snoc (ds : Text) (v : Nat) (c : Char) (d : Nat) (h : HexValue ds v) (hd : HexDigit c d) : HexValue (ds ++ [c]) (16 * v + d)

theorem hexVal_iff (c : Char) (d : Nat) : hexVal c = some d ↔ HexDigit c d := by
  constructor
  · intro h
    have key : ∀ n, n < 128 → ∀ d, hexVal (Char.ofNat n) = some d → HexDigit (Char.ofNat n) d := by
      have : ∀ n, n < 128 → hexVal (Char.ofNat n) = none ∨
          HexDigit (Char.ofNat n) ((hexVal (Char.ofNat n)).getD 0) := by
        unfold HexDigit
        decide +kernel
      intro n hn d hd
      rcases this n hn with h | h
      · rw [hd] at h; cases h
      · rw [hd] at h; exact h
    have hlt : c.toNat < 128 := by
      simp only [hexVal] at h
      split at h
      · rename_i hc; exact Nat.lt_of_le_of_lt hc.2 (by decide)
      · split at h
        · rename_i hc; exact Nat.lt_of_le_of_lt hc.2 (by decide)
        · split at h
          · rename_i hc; exact Nat.lt_of_le_of_lt hc.2 (by decide)
          · cases h
    have he : Char.ofNat c.toNat = c := Char.ofNat_toNat c
    have := key c.toNat hlt d
    rw [he] at this
    exact this h
  · intro h
    have hlt : d < 16 := by
      rcases h with h | h
      · obtain ⟨hl, _⟩ := List.getElem?_eq_some_iff.mp h; simpa using hl
      · obtain ⟨hl, _⟩ := List.getElem?_eq_some_iff.mp h; simpa using hl
    match d, hlt with
    | 0, _ | 1, _ | 2, _ | 3, _ | 4, _ | 5, _ | 6, _ | 7, _ | 8, _ | 9, _ | 10, _ | 11, _ | 12, _ | 13, _ | 14, _ | 15, _ =>
      rcases h with h | h <;> · cases h; decide
    | n + 16, hn => omega

theorem hexFrom_append (ds es : Text) (acc : Nat) :
    hexFrom acc (ds ++ es) = (hexFrom acc ds).bind fun v => hexFrom v es := by
  induction ds generalizing acc with
  | nil => rfl
  | cons d ds ih =>
    simp only [List.cons_append, hexFrom]
    cases hexVal d with
    | none => rfl
    | some n => simp only; rw [ih]

theorem hexFrom_iff (ds : Text) (v : Nat) : hexFrom 0 ds = some v ↔ HexValue ds v := by
  constructor
  · intro h
    induction hl : ds.length generalizing ds v with
    | zero =>
      have : ds = [] := List.length_eq_zero_iff.mp hl
      subst this
      simp only [hexFrom, Option.some.injEq] at h
      subst h
      exact .nil
    | succ n ih =>
      rcases List.eq_nil_or_concat ds with rfl | ⟨es, c, rfl⟩
      · cases hl
      · rw [List.concat_eq_append] at h hl ⊢
        rw [hexFrom_append] at h
        cases he : hexFrom 0 es with
        | none => rw [he] at h; cases h
        | some w =>
          rw [he] at h
          simp only [Option.bind_some, hexFrom] at h
          cases hc : hexVal c with
          | none => rw [hc] at h; cases h
          | some d =>
            rw [hc] at h
            simp only [Option.some.injEq] at h
            subst h
            exact .snoc es w c d (ih es w he (by simpa using hl)) ((hexVal_iff c d).mp hc)
  · intro h
    induction h with
    | nil => rfl
    | snoc ds v c d _ hd ih =>
      rw [hexFrom_append, ih]
      simp only [Option.bind_some, hexFrom, (hexVal_iff c d).mpr hd]

/-- The number after `\x` or `\y`: digits, the first of which may be a plus sign (sic). -/
def Literal (len : Nat) (ds : Text) (v : Nat) : Prop :=
  ds.length = len ∧ (HexValue ds v ∨ ∃ es, ds = '+' :: es ∧ es ≠ [] ∧ HexValue es v)

theorem hexNumber_iff (ds : Text) (v : Nat) (hne : ds ≠ []) :
    hexNumber ds = some v ↔ HexValue ds v ∨ ∃ es, ds = '+' :: es ∧ es ≠ [] ∧ HexValue es v := by
  have hplus : ∀ es w, hexFrom 0 ('+' :: es) ≠ some w := by
    intro es w h
    have : hexVal '+' = none := by decide
    simp [hexFrom, this] at h
  match ds, hne with
  | [], h => exact absurd rfl h
  | '+' :: c :: cs, _ =>
    simp only [hexNumber, hexFrom_iff]
    constructor
    · intro h; exact .inr ⟨c :: cs, rfl, by simp, h⟩
    · rintro (h | ⟨es, he, _, h⟩)
      · exact absurd ((hexFrom_iff _ _).mpr h) (hplus _ _)
      · cases he; exact h
  | ['+'], _ =>
    have : hexNumber ['+'] = none := by decide
    rw [this]
    constructor
    · intro h; cases h
    · rintro (h | ⟨es, he, hn, h⟩)
      · exact absurd ((hexFrom_iff _ _).mpr h) (hplus _ _)
      · cases he; exact absurd rfl hn
  | c :: cs, _ =>
    by_cases hc : c = '+'
    · subst hc
      cases cs with
      | nil =>
        have : hexNumber ['+'] = none := by decide
        rw [this]
        constructor
        · intro h; cases h
        · rintro (h | ⟨es, he, hn, h⟩)
          · exact absurd ((hexFrom_iff _ _).mpr h) (hplus _ _)
          · cases he; exact absurd rfl hn
      | cons d cs =>
        simp only [hexNumber, hexFrom_iff]
        constructor
        · intro h; exact .inr ⟨d :: cs, rfl, by simp, h⟩
        · rintro (h | ⟨es, he, _, h⟩)
          · exact absurd ((hexFrom_iff _ _).mpr h) (hplus _ _)
          · cases he; exact h
    · have : hexNumber (c :: cs) = hexFrom 0 (c :: cs) := by
        rw [hexNumber.eq_def]
        split
        · rename_i h; cases h
        · rename_i h; cases h; exact absurd rfl hc
        · rfl
      rw [this, hexFrom_iff]
      constructor
      · exact .inl
      · rintro (h | ⟨es, he, _, _⟩)
        · exact h
        · cases he; exact absurd rfl hc

/-! ## The specification -/

/-- A surrogate half, as a number. -/
def IsSurrogate (v : Nat) : Prop := 0xd800 ≤ v ∧ v < 0xe000

/-- The rest of the text does not start with an escape that completes the surrogate `high`. -/
def NoSecondHalf (high : Nat) (rest : Text) : Prop :=
  ∀ ds low more, rest = '\\' :: 'x' :: ds ++ more → Literal 4 ds low → ¬ (high < 0xdc00 ∧ 0xdc00 ≤ low ∧ low < 0xe000)

/-- What the escapes of a text stand for. -/
inductive Decodes (ctx : EscCtx) : Text → Text → Prop
  | done : Decodes ctx [] []
  /-- a character other than the backslash stands for itself -/
  | plain (c : Char) (s t : Text) (h : c ≠ '\\') (more : Decodes ctx s t) : Decodes ctx (c :: s) (c :: t)
  /-- `\f \n \r \t \s \v \e \\` -/
  | letter (e c : Char) (s t : Text)
      (h : (e, c) ∈ [('f', Char.ofNat 12), ('n', Char.ofNat 10), ('r', Char.ofNat 13), ('t', Char.ofNat 9),
        ('s', ' '), ('v', Char.ofNat 11), ('e', Char.ofNat 27), ('\\', '\\')])
      (more : Decodes ctx s t) : Decodes ctx ('\\' :: e :: s) (c :: t)
  /-- in a match pattern, `\( \) \]` are left for the pattern parser -/
  | kept (e : Char) (s t : Text) (hctx : ctx = .matchPattern) (h : e ∈ ['(', ')', ']']) (more : Decodes ctx s t) :
      Decodes ctx ('\\' :: e :: s) ('\\' :: e :: t)
  /-- `\xHHHH` and `\yHHHHH` for a character -/
  | number (e : Char) (len : Nat) (ds : Text) (c : Char) (s t : Text) (h : (e, len) ∈ [('x', 4), ('y', 5)])
      (hd : Literal len ds c.toNat) (more : Decodes ctx s t) : Decodes ctx ('\\' :: e :: ds ++ s) (c :: t)
  /-- `\xHHHH\xHHHH` for the two halves of a surrogate pair -/
  | pair (ds es : Text) (high low : Nat) (c : Char) (s t : Text) (hd : Literal 4 ds high) (he : Literal 4 es low)
      (hh : 0xd800 ≤ high ∧ high < 0xdc00) (hl : 0xdc00 ≤ low ∧ low < 0xe000)
      (hc : c.toNat = 0x10000 + (high - 0xd800) * 0x400 + (low - 0xdc00)) (more : Decodes ctx s t) :
      Decodes ctx ('\\' :: 'x' :: ds ++ ('\\' :: 'x' :: es ++ s)) (c :: t)
  /-- any other surrogate half stands for the replacement character -/
  | half (e : Char) (len : Nat) (ds : Text) (v : Nat) (s t : Text) (h : (e, len) ∈ [('x', 4), ('y', 5)])
      (hd : Literal len ds v) (hv : IsSurrogate v) (hno : e = 'x' → NoSecondHalf v s) (more : Decodes ctx s t) :
      Decodes ctx ('\\' :: e :: ds ++ s) (Char.ofNat 0xfffd :: t)

/-! ## The algorithm -/

theorem unescapeUnicode_shorter {len : Nat} {s r : Text} {c : Char} (h : unescapeUnicode len s = some (c, r)) :
    r.length ≤ s.length := by
  simp only [unescapeUnicode] at h
  split at h
  · cases h
  · split at h
    · cases h
    · split at h
      · cases h; simp
      · split at h
        · cases h
        · split at h
          · rename_i v _ _ _ r' hr
            cases h
            rw [secondHalf.eq_def] at hr
            split at hr
            · rename_i s2 hs
              split at hr
              · split at hr
                · cases hr
                · simp only [Option.map_eq_some_iff, Prod.mk.injEq] at hr
                  obtain ⟨_, _, _, rfl⟩ := hr
                  have h1 : (s.drop len).length = s2.length + 2 := by rw [hs]; rfl
                  simp only [List.length_drop] at h1 ⊢
                  omega
              · cases hr
            · cases hr
          · cases h; simp

theorem unescapeGo_fuel (ctx : EscCtx) : ∀ (n : Nat) (s : Text), s.length ≤ n →
    unescapeGo ctx n s = unescapeGo ctx s.length s := by
  intro n
  induction n using Nat.strongRecOn with
  | ind n ih =>
    intro s hs
    cases s with
    | nil => cases n <;> rfl
    | cons c s =>
      cases n with
      | zero => simp at hs
      | succ n =>
        simp only [List.length_cons] at hs
        have h1 : ∀ r : Text, r.length ≤ s.length → unescapeGo ctx n r = unescapeGo ctx s.length r := by
          intro r hr
          rw [ih n (by omega) r (by omega)]
          by_cases e : s.length = n
          · rw [e, ih n (by omega) r (by omega)]
          · rw [ih s.length (by omega) r hr]
        simp only [List.length_cons, unescapeGo]
        by_cases hc : c ≠ '\\'
        · rw [if_pos hc, if_pos hc, h1 s (Nat.le_refl _)]
        · rw [if_neg hc, if_neg hc]
          cases s with
          | nil => rfl
          | cons e s =>
            have h2 := h1 s (by simp)
            simp only [h2]
            have h3 : ∀ len, ((unescapeUnicode len s).bind fun r => (unescapeGo ctx n r.2).map (r.1 :: ·)) =
                ((unescapeUnicode len s).bind fun r => (unescapeGo ctx (e :: s).length r.2).map (r.1 :: ·)) := by
              intro len
              cases hu : unescapeUnicode len s with
              | none => rfl
              | some r =>
                obtain ⟨c, s'⟩ := r
                simp only [Option.bind_some]
                rw [h1 s' (by have := unescapeUnicode_shorter hu; simp only [List.length_cons]; omega)]
            rw [h3 4, h3 5]

/-- The rest of the text after a number. -/
def afterNumber (ctx : EscCtx) (r : Option (Char × Text)) : Option Text :=
  r.bind fun r => (unescape ctx r.2).map (r.1 :: ·)

/-- One round of the algorithm. -/
theorem unescape_cons (ctx : EscCtx) (c : Char) (s : Text) : unescape ctx (c :: s) =
    if c ≠ '\\' then (unescape ctx s).map (c :: ·)
    else match s with
      | [] => none
      | e :: s =>
        match simpleEscape e with
        | some c => (unescape ctx s).map (c :: ·)
        | none =>
          if ctx = .matchPattern ∧ (e = '(' ∨ e = ')' ∨ e = ']') then (unescape ctx s).map fun t => '\\' :: e :: t
          else if e = 'x' then afterNumber ctx (unescapeUnicode 4 s)
          else if e = 'y' then afterNumber ctx (unescapeUnicode 5 s)
          else none := by
  simp only [unescape, List.length_cons, unescapeGo]
  by_cases hc : c ≠ '\\'
  · rw [if_pos hc, if_pos hc]
  · rw [if_neg hc, if_neg hc]
    cases s with
    | nil => rfl
    | cons e s =>
      simp only [List.length_cons]
      rw [unescapeGo_fuel ctx (s.length + 1) s (by omega)]
      have h3 : ∀ len, ((unescapeUnicode len s).bind fun r => (unescapeGo ctx (s.length + 1) r.2).map (r.1 :: ·)) =
          afterNumber ctx (unescapeUnicode len s) := by
        intro len
        cases hu : unescapeUnicode len s with
        | none => rfl
        | some r =>
          obtain ⟨c, s'⟩ := r
          simp only [afterNumber, unescape, Option.bind_some]
          rw [unescapeGo_fuel ctx (s.length + 1) s' (by have := unescapeUnicode_shorter hu; omega)]
      rw [h3 4, h3 5]
      rfl

theorem simpleEscape_iff (e c : Char) : simpleEscape e = some c ↔
    (e, c) ∈ [('f', Char.ofNat 12), ('n', Char.ofNat 10), ('r', Char.ofNat 13), ('t', Char.ofNat 9),
        ('s', ' '), ('v', Char.ofNat 11), ('e', Char.ofNat 27), ('\\', '\\')] := by
  constructor
  · intro h
    rw [simpleEscape.eq_def] at h
    split at h <;> first | (cases h; decide) | cases h
  · intro h
    simp only [List.mem_cons, Prod.mk.injEq, List.not_mem_nil, or_false] at h
    rcases h with ⟨rfl, rfl⟩ | ⟨rfl, rfl⟩ | ⟨rfl, rfl⟩ | ⟨rfl, rfl⟩ | ⟨rfl, rfl⟩ | ⟨rfl, rfl⟩ | ⟨rfl, rfl⟩ | ⟨rfl, rfl⟩ <;> rfl

theorem not_simpleEscape {e : Char} (h : e ∈ ['(', ')', ']', 'x', 'y']) : simpleEscape e = none := by
  simp only [List.mem_cons, List.not_mem_nil, or_false] at h
  rcases h with rfl | rfl | rfl | rfl | rfl <;> rfl

theorem Literal.unique {len : Nat} {ds : Text} {v w : Nat} (h : Literal len ds v) (h' : Literal len ds w) (hl : 0 < len) :
    v = w := by
  have hne : ds ≠ [] := by intro e; rw [e] at h; have := h.1; simp at this; omega
  have h1 := (hexNumber_iff ds v hne).mpr h.2
  have h2 := (hexNumber_iff ds w hne).mpr h'.2
  rw [h1] at h2
  exact Option.some.inj h2

theorem hexNumber_lt {len : Nat} {ds : Text} {v : Nat} (h : Literal len ds v) : v < 16 ^ len := by
  have key : ∀ (es : Text) (w : Nat), HexValue es w → w < 16 ^ es.length := by
    intro es w hw
    induction hw with
    | nil => simp
    | snoc ds v c d _ hd ih =>
      have hlt : d < 16 := by
        rcases hd with h | h
        · obtain ⟨hl, _⟩ := List.getElem?_eq_some_iff.mp h; simpa using hl
        · obtain ⟨hl, _⟩ := List.getElem?_eq_some_iff.mp h; simpa using hl
      simp only [List.length_append, List.length_cons, List.length_nil, Nat.zero_add, Nat.pow_succ]
      omega
  rcases h with ⟨hl, h | ⟨es, rfl, hne, h⟩⟩
  · rw [← hl]; exact key _ _ h
  · have := key _ _ h
    have h2 : 16 ^ es.length ≤ 16 ^ len := Nat.pow_le_pow_right (by omega) (by simp at hl; omega)
    omega

/-- The outcomes of a number. -/
inductive NumberIs (len : Nat) : Text → Char → Text → Prop
  | char (ds : Text) (c : Char) (s : Text) (hd : Literal len ds c.toNat) : NumberIs len (ds ++ s) c s
  | pair (ds es : Text) (high low : Nat) (c : Char) (s : Text) (hlen : len = 4) (hd : Literal 4 ds high)
      (he : Literal 4 es low) (hh : 0xd800 ≤ high ∧ high < 0xdc00) (hl : 0xdc00 ≤ low ∧ low < 0xe000)
      (hc : c.toNat = 0x10000 + (high - 0xd800) * 0x400 + (low - 0xdc00)) :
      NumberIs len (ds ++ ('\\' :: 'x' :: es ++ s)) c s
  | half (ds : Text) (v : Nat) (s : Text) (hd : Literal len ds v) (hv : IsSurrogate v)
      (hno : len = 4 → NoSecondHalf v s) : NumberIs len (ds ++ s) (Char.ofNat 0xfffd) s

theorem isValidChar_iff (v : Nat) : v.isValidChar ↔ v < 0xd800 ∨ (0xdfff < v ∧ v < 0x110000) := Iff.rfl

theorem toNat_ofNat_valid {v : Nat} (h : v.isValidChar) : (Char.ofNat v).toNat = v := by
  simp only [Char.ofNat, dif_pos h]
  rfl

set_option maxRecDepth 8000 in
theorem secondHalf_eq_some {high : Nat} {rest r : Text} {c : Char} :
    secondHalf 4 high rest = some (c, r) ↔
      ∃ es low, Literal 4 es low ∧ rest = '\\' :: 'x' :: es ++ r ∧ high < 0xdc00 ∧ 0xdc00 ≤ low ∧ low < 0xe000 ∧
        c = pairChar high low := by
  constructor
  · intro h
    rw [secondHalf.eq_def] at h
    split at h
    · rename_i s
      simp only [if_true] at h
      split at h
      · cases h
      · rename_i low hlow
        simp only [Option.map_eq_some_iff, Prod.mk.injEq] at h
        obtain ⟨c', hc', rfl, rfl⟩ := h
        simp only [decodePair] at hc'
        split at hc'
        · rename_i hcond
          simp only [Option.some.injEq] at hc'
          subst hc'
          have hne : s.take 4 ≠ [] := by intro e; rw [e] at hlow; cases hlow
          have hnum := (hexNumber_iff _ _ hne).mp hlow
          by_cases hlen : 4 ≤ s.length
          · exact ⟨s.take 4, low, ⟨by simp; omega, hnum⟩, by simp, hcond.1, hcond.2.1, hcond.2.2, rfl⟩
          · -- fewer than four digits give a number that is no low half
            exfalso
            have : Literal (s.take 4).length (s.take 4) low := ⟨rfl, hnum⟩
            have h1 := hexNumber_lt this
            have h2 : (s.take 4).length ≤ 3 := by simp; omega
            have h3 : 16 ^ (s.take 4).length ≤ 16 ^ 3 := Nat.pow_le_pow_right (by omega) h2
            omega
        · cases hc'
    · cases h
  · rintro ⟨es, low, hl, rfl, h1, h2, h3, hc⟩
    rw [hc]
    have hlen : es.length = 4 := hl.1
    have hne : es ≠ [] := by intro e; rw [e] at hlen; cases hlen
    rw [secondHalf.eq_def]
    have ht : List.take 4 (es ++ r) = es := by rw [← hlen]; simp
    have hd : List.drop 4 (es ++ r) = r := by rw [← hlen]; simp
    simp [ht, hd, (hexNumber_iff es low hne).mpr hl.2, decodePair, h1, h2, h3]

theorem secondHalf_none {high : Nat} {rest : Text} : secondHalf 4 high rest = none ↔ NoSecondHalf high rest := by
  constructor
  · intro h ds low more hr hl hcond
    have := (secondHalf_eq_some (high := high) (rest := rest) (r := more)
      (c := pairChar high low)).mpr
      ⟨ds, low, hl, hr, hcond.1, hcond.2.1, hcond.2.2, rfl⟩
    rw [h] at this
    cases this
  · intro h
    cases hs : secondHalf 4 high rest with
    | none => rfl
    | some r =>
      obtain ⟨c, r⟩ := r
      obtain ⟨es, low, hl, hr, h1, h2, h3, _⟩ := secondHalf_eq_some.mp hs
      exact absurd ⟨h1, h2, h3⟩ (h es low r hr hl)

set_option maxRecDepth 8000 in
theorem unescapeUnicode_iff (len : Nat) (hlen : len = 4 ∨ len = 5) (s : Text) (c : Char) (r : Text) :
    unescapeUnicode len s = some (c, r) ↔ NumberIs len s c r := by
  constructor
  · intro h
    simp only [unescapeUnicode] at h
    split at h
    · cases h
    · rename_i hge
      have htl : (s.take len).length = len := by simp; omega
      have hne : s.take len ≠ [] := by intro e; rw [e] at htl; simp at htl; omega
      split at h
      · cases h
      · rename_i v hv
        have hlit : Literal len (s.take len) v := ⟨htl, (hexNumber_iff _ _ hne).mp hv⟩
        have hs : s = s.take len ++ s.drop len := (List.take_append_drop len s).symm
        split at h
        · rename_i hvalid
          cases h
          have : NumberIs len (s.take len ++ s.drop len) (Char.ofNat v) (s.drop len) :=
            .char _ _ _ (by rw [toNat_ofNat_valid hvalid]; exact hlit)
          rwa [List.take_append_drop] at this
        · rename_i hinv
          rw [isValidChar_iff] at hinv
          have hlt := hexNumber_lt hlit
          have hb : v < 0x110000 := by
            rcases hlen with rfl | rfl
            · have : (16 : Nat) ^ 4 = 65536 := by decide
              omega
            · have : (16 : Nat) ^ 5 = 1048576 := by decide
              omega
          have hsur : IsSurrogate v := by constructor <;> omega
          split at h
          · rename_i hbig; exact absurd hsur.2 (by omega)
          · split at h
            · rename_i r' hsec
              cases h
              rcases hlen with rfl | rfl
              · obtain ⟨es, low, hl, hr, h1, h2, h3, hc⟩ := secondHalf_eq_some.mp hsec
                rw [hc]
                have : NumberIs 4 (s.take 4 ++ ('\\' :: 'x' :: es ++ r))
                    (pairChar v low) r := by
                  refine .pair _ es v low _ r rfl hlit hl ⟨hsur.1, h1⟩ ⟨h2, h3⟩ ?_
                  apply toNat_ofNat_valid
                  rw [isValidChar_iff]
                  have := hsur.1
                  omega
                rwa [← hr, List.take_append_drop] at this
              · exfalso
                rw [secondHalf.eq_def] at hsec
                split at hsec
                · simp at hsec
                · cases hsec
            · rename_i hsec
              cases h
              have : NumberIs len (s.take len ++ s.drop len) (Char.ofNat 0xfffd) (s.drop len) := by
                refine .half _ v _ hlit hsur ?_
                rintro rfl
                exact secondHalf_none.mp hsec
              rwa [List.take_append_drop] at this
  · intro h
    have key : ∀ (ds t : Text) (v : Nat), Literal len ds v → ¬ (ds ++ t).length < len ∧
        hexNumber ((ds ++ t).take len) = some v ∧ (ds ++ t).drop len = t := by
      intro ds t v hl
      have hl1 := hl.1
      have hne : ds ≠ [] := by intro e; rw [e] at hl1; simp at hl1; omega
      refine ⟨by simp; omega, ?_, ?_⟩
      · rw [← hl1, List.take_left]; exact (hexNumber_iff _ _ hne).mpr hl.2
      · rw [← hl1, List.drop_left]
    cases h with
    | char ds c s hd =>
      obtain ⟨h1, h2, h3⟩ := key ds r _ hd
      simp only [unescapeUnicode, if_neg h1, h2, h3]
      have hv : c.toNat.isValidChar := c.valid
      rw [if_pos hv, Char.ofNat_toNat]
    | pair ds es high low c s hl4 hd he hh hl hc =>
      subst hl4
      obtain ⟨h1, h2, h3⟩ := key ds ('\\' :: 'x' :: es ++ r) high hd
      simp only [unescapeUnicode, if_neg h1, h2, h3]
      have hinv : ¬ high.isValidChar := by rw [isValidChar_iff]; omega
      rw [if_neg hinv, if_neg (by omega)]
      have : secondHalf 4 high ('\\' :: 'x' :: es ++ r) = some (c, r) := by
        refine secondHalf_eq_some.mpr ⟨es, low, he, rfl, hh.2, hl.1, hl.2, ?_⟩
        rw [pairChar, ← hc, Char.ofNat_toNat]
      rw [this]
    | half ds v s hd hv hno =>
      obtain ⟨h1, h2, h3⟩ := key ds r v hd
      simp only [unescapeUnicode, if_neg h1, h2, h3]
      have hinv : ¬ v.isValidChar := by rw [isValidChar_iff]; have := hv.1; have := hv.2; omega
      rw [if_neg hinv, if_neg (by have := hv.2; omega)]
      have : secondHalf len v r = none := by
        rcases hlen with rfl | rfl
        · exact secondHalf_none.mpr (hno rfl)
        · rw [secondHalf.eq_def]; split <;> simp
      rw [this]

/-- C35: an operand is accepted, and decoded to a text, exactly if the escapes in it stand for that text. -/
theorem C35_decoding_is_exact (ctx : EscCtx) (s t : Text) : unescape ctx s = some t ↔ Decodes ctx s t := by
  constructor
  · intro h
    induction hn : s.length using Nat.strongRecOn generalizing s t with
    | ind n ih =>
      cases s with
      | nil => simp only [unescape, unescapeGo, List.length_nil, Option.some.injEq] at h; subst h; exact .done
      | cons c s =>
        rw [unescape_cons] at h
        simp only [List.length_cons] at hn
        by_cases hc : c ≠ '\\'
        · rw [if_pos hc, Option.map_eq_some_iff] at h
          obtain ⟨t', h1, rfl⟩ := h
          exact .plain c s t' hc (ih s.length (by omega) s t' h1 rfl)
        · rw [if_neg hc] at h
          have hc : c = '\\' := Classical.not_not.mp hc
          subst hc
          cases s with
          | nil => cases h
          | cons e s =>
            simp only [List.length_cons] at hn
            simp only at h
            cases hs : simpleEscape e with
            | some c =>
              rw [hs] at h
              simp only [Option.map_eq_some_iff] at h
              obtain ⟨t', h1, rfl⟩ := h
              exact .letter e c s t' ((simpleEscape_iff e c).mp hs) (ih s.length (by omega) s t' h1 rfl)
            | none =>
              rw [hs] at h
              simp only at h
              have hnum : ∀ len, (e, len) ∈ [('x', 4), ('y', 5)] → afterNumber ctx (unescapeUnicode len s) = some t →
                  Decodes ctx ('\\' :: e :: s) t := by
                intro len hlen h
                have hl45 : len = 4 ∨ len = 5 := by
                  simp only [List.mem_cons, Prod.mk.injEq, List.not_mem_nil, or_false] at hlen
                  rcases hlen with ⟨_, h⟩ | ⟨_, h⟩ <;> simp [h]
                cases hu : unescapeUnicode len s with
                | none => rw [hu] at h; cases h
                | some r =>
                  obtain ⟨c, r⟩ := r
                  rw [hu] at h
                  simp only [afterNumber, Option.bind_some, Option.map_eq_some_iff] at h
                  obtain ⟨t', h1, rfl⟩ := h
                  have hr := unescapeUnicode_shorter hu
                  have hm := ih r.length (by omega) r t' h1 rfl
                  have hx : len = 4 ↔ e = 'x' := by
                    simp only [List.mem_cons, Prod.mk.injEq, List.not_mem_nil, or_false] at hlen
                    rcases hlen with ⟨rfl, rfl⟩ | ⟨rfl, rfl⟩ <;> decide
                  cases (unescapeUnicode_iff len hl45 s c r).mp hu with
                  | char ds _ _ hd => exact .number e len ds c r t' hlen hd hm
                  | pair ds es high low _ _ hl4 hd he hh hl hc =>
                    rw [hx.mp hl4]
                    exact .pair ds es high low c r t' hd he hh hl hc hm
                  | half ds v _ hd hv hno =>
                    exact .half e len ds v r t' hlen hd hv (fun he => hno (hx.mpr he)) hm
              by_cases hk : ctx = .matchPattern ∧ (e = '(' ∨ e = ')' ∨ e = ']')
              · rw [if_pos hk] at h
                simp only [Option.map_eq_some_iff] at h
                obtain ⟨t', h1, rfl⟩ := h
                exact .kept e s t' hk.1 (by simpa using hk.2) (ih s.length (by omega) s t' h1 rfl)
              · rw [if_neg hk] at h
                by_cases hx : e = 'x'
                · rw [if_pos hx] at h; exact hnum 4 (by simp [hx]) h
                · rw [if_neg hx] at h
                  by_cases hy : e = 'y'
                  · rw [if_pos hy] at h; exact hnum 5 (by simp [hy]) h
                  · rw [if_neg hy] at h; cases h
  · intro h
    have hnum : ∀ (e : Char) (len : Nat) (s r t : Text) (c : Char), (e, len) ∈ [('x', 4), ('y', 5)] → NumberIs len s c r →
        unescape ctx r = some t → unescape ctx ('\\' :: e :: s) = some (c :: t) := by
      intro e len s r t c hlen hn hr
      have hl45 : len = 4 ∨ len = 5 := by
        simp only [List.mem_cons, Prod.mk.injEq, List.not_mem_nil, or_false] at hlen
        rcases hlen with ⟨_, h⟩ | ⟨_, h⟩ <;> simp [h]
      have hu := (unescapeUnicode_iff len hl45 s c r).mpr hn
      rw [unescape_cons, if_neg (by simp)]
      simp only [List.mem_cons, Prod.mk.injEq, List.not_mem_nil, or_false] at hlen
      rcases hlen with ⟨rfl, rfl⟩ | ⟨rfl, rfl⟩
      · simp only
        rw [not_simpleEscape (by simp)]
        simp only [hu, afterNumber, hr, Option.map_some, Option.bind_some]
        rw [if_neg (by rintro ⟨_, h | h | h⟩ <;> exact absurd h (by decide)), if_pos trivial]
      · simp only
        rw [not_simpleEscape (by simp)]
        simp only [hu, afterNumber, hr, Option.map_some, Option.bind_some]
        rw [if_neg (by rintro ⟨_, h | h | h⟩ <;> exact absurd h (by decide)), if_neg (by decide), if_pos trivial]
    induction h with
    | done => rfl
    | plain c s t hc _ ih => rw [unescape_cons, if_pos hc, ih]; rfl
    | letter e c s t he _ ih =>
      rw [unescape_cons, if_neg (by simp)]
      simp only [(simpleEscape_iff e c).mpr he, ih, Option.map_some]
    | kept e s t hctx he _ ih =>
      rw [unescape_cons, if_neg (by simp)]
      have : simpleEscape e = none := not_simpleEscape (by
        simp only [List.mem_cons, List.not_mem_nil, or_false] at he
        rcases he with rfl | rfl | rfl <;> decide)
      simp only [this, ih, Option.map_some]
      rw [if_pos ⟨hctx, by simpa using he⟩]
    | number e len ds c s t he hd _ ih => exact hnum e len _ s t c he (.char ds c s hd) ih
    | pair ds es high low c s t hd he hh hl hc _ ih =>
      exact hnum 'x' 4 _ s t c (by simp) (.pair ds es high low c s rfl hd he hh hl hc) ih
    | half e len ds v s t he hd hv hno _ ih =>
      refine hnum e len _ s t _ he (.half ds v s hd hv ?_) ih
      intro h4
      apply hno
      simp only [List.mem_cons, Prod.mk.injEq, List.not_mem_nil, or_false] at he
      rcases he with ⟨rfl, _⟩ | ⟨rfl, h5⟩
      · rfl
      · omega

/-- C35: a text stands for at most one text. -/
theorem C35_decoding_unique (ctx : EscCtx) (s t t' : Text) (h : Decodes ctx s t) (h' : Decodes ctx s t') : t = t' := by
  have h1 := (C35_decoding_is_exact ctx s t).mpr h
  have h2 := (C35_decoding_is_exact ctx s t').mpr h'
  rw [h1] at h2
  exact Option.some.inj h2

/-- C35: text without a backslash is unchanged. -/
theorem C35_plain_text_unchanged (ctx : EscCtx) (s : Text) (h : '\\' ∉ s) : unescape ctx s = some s := by
  rw [C35_decoding_is_exact]
  induction s with
  | nil => exact .done
  | cons c s ih =>
    simp only [List.mem_cons, not_or] at h
    exact .plain c s s (Ne.symm h.1) (ih h.2)

/-- C35: decoding goes from left to right, piece by piece.  (The second text must not begin with an escape `\x`, which could
complete a surrogate pair.) -/
theorem C35_homomorphism (ctx : EscCtx) (s s' t t' : Text) (h1 : unescape ctx s = some s') (h2 : unescape ctx t = some t')
    (hx : ∀ r, t ≠ '\\' :: 'x' :: r) : unescape ctx (s ++ t) = some (s' ++ t') := by
  rw [C35_decoding_is_exact] at *
  induction h1 with
  | done => exact h2
  | plain c s t hc _ ih => exact .plain c _ _ hc ih
  | letter e c s t he _ ih => exact .letter e c _ _ he ih
  | kept e s t hctx he _ ih => exact .kept e _ _ hctx he ih
  | number e len ds c s t he hd _ ih =>
    have := Decodes.number (ctx := ctx) e len ds c _ _ he hd ih
    simpa [List.append_assoc] using this
  | pair ds es high low c s t hd he hh hl hc _ ih =>
    have := Decodes.pair (ctx := ctx) ds es high low c _ _ hd he hh hl hc ih
    simpa [List.append_assoc] using this
  | half e len ds v s u he hd hv hno hm ih =>
    have := Decodes.half (ctx := ctx) e len ds v _ _ he hd hv (fun hex => by
      intro ds' low more hr hl hcond
      have hno := hno hex
      by_cases hsh : s.length < 6
      · -- the escape would have to be cut in two
        cases s with
        | nil => exact hx (ds' ++ more) (by simpa using hr)
        | cons a s =>
          simp only [List.cons_append, List.cons.injEq] at hr
          obtain ⟨rfl, hr⟩ := hr
          cases s with
          | nil =>
            -- a single backslash at the end is no text
            cases hm with
            | plain _ _ _ hc => exact hc rfl
          | cons b s =>
            simp only [List.cons_append, List.cons.injEq] at hr
            obtain ⟨rfl, hr⟩ := hr
            have hs4 : s.length < 4 := by simp only [List.length_cons] at hsh; omega
            cases hm with
            | plain _ _ _ hc => exact hc rfl
            | letter _ _ _ _ h => simp at h
            | kept _ _ _ _ h => simp at h
            | number _ len2 ds2 _ s2 _ h hd2 =>
              simp only [List.mem_cons, Prod.mk.injEq, List.not_mem_nil, or_false] at h
              rcases h with ⟨_, rfl⟩ | ⟨h, _⟩
              · have := hd2.1
                simp only [List.append_eq, List.length_append] at hs4
                omega
              · exact absurd h (by decide)
            | half _ len2 ds2 _ s2 _ h hd2 =>
              simp only [List.mem_cons, Prod.mk.injEq, List.not_mem_nil, or_false] at h
              rcases h with ⟨_, rfl⟩ | ⟨h, _⟩
              · have := hd2.1
                simp only [List.append_eq, List.length_append] at hs4
                omega
              · exact absurd h (by decide)
            | pair _ _ _ _ _ s2 _ hd2 =>
              have := hd2.1
              simp only [List.append_eq, List.length_append] at hs4
              omega
      · have h6 : 6 ≤ s.length := by omega
        have hpre : '\\' :: 'x' :: ds' = s.take 6 := by
          have h1 : (s ++ t).take 6 = ('\\' :: 'x' :: ds' ++ more).take 6 := by rw [hr]
          rw [List.take_append_of_le_length h6] at h1
          rw [h1, List.take_append_of_le_length (by simp [hl.1]), List.take_of_length_le (by simp [hl.1])]
        exact hno ds' low (s.drop 6) (by rw [hpre, List.take_append_drop]) hl hcond) ih
    simpa [List.append_assoc] using this

/-- C35 is met by concrete cases: letters, numbers, a surrogate pair, and one half of it. -/
example : unescape .default "a\\s\\x00e9\\y1F600\\xd83d\\xde00\\xd83d!".toList =
    some ['a', ' ', 'é', '😀', '😀', Char.ofNat 0xfffd, '!'] := by decide +kernel

/-- The side condition of `C35_homomorphism` is needed: the halves of a pair. -/
theorem C35_homomorphism_fails_for_pairs : ∃ s t s' t', unescape .default s = some s' ∧ unescape .default t = some t' ∧
    unescape .default (s ++ t) ≠ some (s' ++ t') :=
  ⟨"\\xd83d".toList, "\\xde00".toList, [Char.ofNat 0xfffd], [Char.ofNat 0xfffd], by decide +kernel, by decide +kernel,
    by decide +kernel⟩

/-- C35 does not hold of numbers with a sign: `\x+041` is no sequence of four hexadecimal digits, but is accepted. -/
theorem C35_sign_accepted_wrong : unescape .default "\\x+041".toList = some ['A'] := by decide +kernel

/-- C35 does not hold in the strings of multipass tests and actions: `\\` stands for two backslashes there, and a string that
ends with an escaped backslash is rejected. -/
theorem C35_multipass_backslash_wrong :
    parseTest "\"a\\\\b\"".toList = .ok [.string ['a', '\\', '\\', 'b']] ∧
    parseTest "\"a\\\\\"".toList = .error .reject ∧
    unescape .default "a\\\\b".toList = some ['a', '\\', 'b'] := by decide +kernel

end Louis
