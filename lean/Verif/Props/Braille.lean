import Verif.Model.Braille

/-!
# C31, C54: cells, their Unicode characters, and the dots operand
-/

namespace Louis

theorem testBit_foldl_or (l : List Nat) (acc i : Nat) :
    (l.foldl (· ||| ·) acc).testBit i = (acc.testBit i || l.any (·.testBit i)) := by
  induction l generalizing acc with
  | nil => simp
  | cons x l ih => simp [ih, Bool.or_assoc]

/-- The bit that a dot other than dot 0 occupies. -/
def Dot.bit : Dot → Nat
  | .d0 => 31
  | .d1 => 0 | .d2 => 1 | .d3 => 2 | .d4 => 3 | .d5 => 4 | .d6 => 5 | .d7 => 6 | .d8 => 7 | .d9 => 8 | .da => 9
  | .db => 10 | .dc => 11 | .dd => 12 | .de => 13 | .df => 14

theorem testBit_toHex (d e : Dot) (he : e ≠ .d0) : d.toHex.testBit e.bit = decide (d = e) := by
  cases e <;> first | exact absurd rfl he | (cases d <;> decide)

theorem any_toHex (c : Cell) (e : Dot) (he : e ≠ .d0) : (c.map Dot.toHex).any (·.testBit e.bit) = decide (e ∈ c) := by
  induction c with
  | nil => simp
  | cons d c ih =>
    simp only [List.map_cons, List.any_cons, ih, testBit_toHex d e he, List.mem_cons]
    by_cases h : d = e
    · simp [h]
    · have : ¬ e = d := fun x => h x.symm
      simp [h, this]

theorem code_virtual_iff (c : Cell) : c.any Dot.isVirtual = c.code.testBit 16 := by
  unfold Cell.code
  rw [testBit_foldl_or]
  have : (c.map Dot.toHex).any (·.testBit 16) = false := by
    induction c with
    | nil => rfl
    | cons d c ih => simp only [List.map_cons, List.any_cons, ih]; cases d <;> decide
  rw [this]
  by_cases h : c.any Dot.isVirtual <;> simp [h] <;> decide

theorem mem_virtual {c : Cell} {e : Dot} (he : e ∈ c) (hv : e.isVirtual = true) : c.any Dot.isVirtual = true :=
  List.any_eq_true.mpr ⟨e, he, hv⟩

/-- A dot other than dot 0 can be read off the code. -/
theorem mem_iff_code (c : Cell) (e : Dot) (he : e ≠ .d0) :
    e ∈ c ↔ (c.code.testBit e.bit = true ∧ (e.isVirtual = true → c.code.testBit 16 = true)) := by
  constructor
  · intro h
    refine ⟨?_, fun hv => ?_⟩
    · unfold Cell.code; rw [testBit_foldl_or, any_toHex c e he]; simp [h]
    · rw [← code_virtual_iff]; exact mem_virtual h hv
  · rintro ⟨h, hv⟩
    unfold Cell.code at h
    rw [testBit_foldl_or, any_toHex c e he] at h
    by_cases hx : c.any Dot.isVirtual = true
    · rw [if_pos hx] at h
      have : Nat.testBit 0xF0000 e.bit = false := by cases e <;> first | exact absurd rfl he | decide
      simpa [this] using h
    · rw [if_neg hx] at h
      by_cases hve : e.isVirtual = true
      · exact absurd ((code_virtual_iff c).trans (hv hve)) hx
      · have : Nat.testBit 0x2800 e.bit = false := by
          cases e <;> first | exact absurd rfl he | decide | exact absurd rfl hve
        simpa [this] using h

/-- **C31**, where the characters of cells lie: dots 1–8 in the braille block U+2800…U+28FF, a cell with a virtual dot in
the private-use range U+F0000…U+F7FFF. -/
theorem C31_range (c : Cell) :
    (c.any Dot.isVirtual = false → 0x2800 ≤ c.code ∧ c.code ≤ 0x28FF) ∧
    (c.any Dot.isVirtual = true → 0xF0000 ≤ c.code ∧ c.code ≤ 0xF7FFF) := by
  have key : ∀ (l : List Dot) (acc lo : Nat) (k : Nat), (∀ d ∈ l, d.toHex < 2 ^ k) → lo ≤ acc → acc < lo + 2 ^ k →
      lo % 2 ^ k = 0 → lo ≤ (l.map Dot.toHex).foldl (· ||| ·) acc ∧ (l.map Dot.toHex).foldl (· ||| ·) acc < lo + 2 ^ k := by
    intro l
    induction l with
    | nil => intro acc lo k _ h1 h2 _; exact ⟨h1, h2⟩
    | cons d l ih =>
      intro acc lo k hd h1 h2 h3
      have hd' := hd d (List.mem_cons_self ..)
      simp only [List.map_cons, List.foldl_cons]
      refine ih (acc ||| d.toHex) lo k (fun e he => hd e (List.mem_cons_of_mem _ he)) (Nat.le_trans h1 Nat.left_le_or) ?_ h3
      obtain ⟨q, hq⟩ := Nat.dvd_of_mod_eq_zero h3
      have hpos := Nat.two_pow_pos k
      have h5 : acc / 2 ^ k = q := by
        rw [Nat.div_eq_iff hpos]; subst hq; rw [Nat.mul_comm (2 ^ k) q] at *; omega
      have h6 : (acc ||| d.toHex) / 2 ^ k = q := by
        rw [Nat.or_div_two_pow, Nat.div_eq_of_lt hd', Nat.or_zero, h5]
      have := Nat.lt_mul_div_succ (acc ||| d.toHex) hpos
      rw [h6] at this
      rw [hq]; rw [Nat.mul_add] at this; omega
  constructor
  · intro h
    have hb : ∀ d ∈ c, d.toHex < 2 ^ 8 := by
      intro d hd
      have : d.isVirtual = false := by
        cases hv : d.isVirtual with
        | false => rfl
        | true => rw [mem_virtual hd hv] at h; cases h
      cases d <;> first | decide | cases this
    have := key c 0x2800 0x2800 8 hb (Nat.le_refl _) (by decide) (by decide)
    unfold Cell.code; rw [if_neg (by simp [h])]; omega
  · intro h
    have hb : ∀ d ∈ c, d.toHex < 2 ^ 15 := by intro d _; cases d <;> decide
    have := key c 0xF0000 0xF0000 15 hb (Nat.le_refl _) (by decide) (by decide)
    unfold Cell.code; rw [if_pos h]; omega

/-- **C31**, no conversion can fail: the code of every cell is a Unicode scalar value. -/
theorem C31_conversion_cannot_fail (c : Cell) : c.code.isValidChar := by
  have := C31_range c
  cases h : c.any Dot.isVirtual with
  | false => have := this.1 h; unfold Nat.isValidChar; omega
  | true => have := this.2 h; unfold Nat.isValidChar; omega

theorem toNat_toUnicode (c : Cell) : c.toUnicode.toNat = c.code := by
  unfold Cell.toUnicode Char.ofNat
  rw [dif_pos (C31_conversion_cannot_fail c)]
  rfl

/-- **C31**, the Unicode character of a cell determines its dots (dot 0 aside). -/
theorem C31_injective (a b : Cell) (h : a.toUnicode = b.toUnicode) : ∀ d, d ≠ .d0 → (d ∈ a ↔ d ∈ b) := by
  intro d hd
  have hc : a.code = b.code := by rw [← toNat_toUnicode, ← toNat_toUnicode, h]
  rw [mem_iff_code a d hd, mem_iff_code b d hd, hc]

/-- **C31**, conversely cells with the same dots (dot 0 aside) have the same character. -/
theorem C31_extensional (a b : Cell) (h : ∀ d, d ≠ .d0 → (d ∈ a ↔ d ∈ b)) : a.toUnicode = b.toUnicode := by
  have hv : a.any Dot.isVirtual = b.any Dot.isVirtual := by
    rw [Bool.eq_iff_iff, List.any_eq_true, List.any_eq_true]
    constructor <;> rintro ⟨d, hd, hv⟩ <;> refine ⟨d, ?_, hv⟩
    · exact (h d (by rintro rfl; cases hv)).mp hd
    · exact (h d (by rintro rfl; cases hv)).mpr hd
  have hcode : a.code = b.code := by
    apply Nat.eq_of_testBit_eq
    intro i
    unfold Cell.code
    rw [testBit_foldl_or, testBit_foldl_or, hv]
    congr 1
    rw [Bool.eq_iff_iff]
    simp only [List.any_map, List.any_eq_true, Function.comp]
    constructor <;> rintro ⟨d, hd, hb⟩ <;> refine ⟨d, ?_, hb⟩
    · exact (h d (by rintro rfl; simp [Dot.toHex] at hb)).mp hd
    · exact (h d (by rintro rfl; simp [Dot.toHex] at hb)).mpr hd
  unfold Cell.toUnicode; rw [hcode]

/-- A sequence of cells is determined, cell by cell, by its text. -/
theorem C31_cells_injective (as bs : Cells) (h : as.toText = bs.toText) :
    as.length = bs.length ∧ ∀ (i : Nat) (a b : Cell), as[i]? = some a → bs[i]? = some b →
      ∀ d, d ≠ Dot.d0 → (d ∈ a ↔ d ∈ b) := by
  constructor
  · have := congrArg List.length h; simpa [Cells.toText] using this
  · intro i a b ha hb
    apply C31_injective
    have := congrArg (·[i]?) h
    simpa [Cells.toText, ha, hb] using this

/-- Concrete cells: `12` is ⠃, dot 0 is blank, `9` is in the private-use range. -/
example : Cell.toUnicode [.d1, .d2] = '⠃' ∧ Cell.toUnicode [.d0] = '⠀' ∧
    (Cell.toUnicode [.d1, .d9]).toNat = 0xF0101 := by decide

/-! ## C54: the dots operand -/

/-- What a dots operand says: cells separated by `-`, each a non-empty sequence of dot names. -/
inductive Denotes : Text → Cells → Prop
  | last (s : Text) (c : Cell) (hs : s ≠ []) (hc : s.map Dot.ofChar = c.map some) : Denotes s [c]
  | more (s : Text) (c : Cell) (rest : Text) (cs : Cells) (hs : s ≠ []) (hc : s.map Dot.ofChar = c.map some)
      (h : Denotes rest cs) : Denotes (s ++ '-' :: rest) (c :: cs)

theorem dotsOf_iff (s : Text) (c : Cell) : dotsOf s = some c ↔ s.map Dot.ofChar = c.map some := by
  induction s generalizing c with
  | nil => cases c <;> simp [dotsOf]
  | cons x s ih =>
    unfold dotsOf
    cases hx : Dot.ofChar x with
    | none => cases c <;> simp [hx]
    | some d =>
      cases c with
      | nil => cases h : dotsOf s <;> simp [h]
      | cons e c =>
        cases h : dotsOf s with
        | none =>
          simp only [Option.map_none, List.map_cons, hx]
          constructor
          · intro h'; cases h'
          · intro h'
            injection h' with _ h2
            rw [(ih c).mpr h2] at h; cases h
        | some c' =>
          have h1 := (ih c').mp h
          simp only [Option.map_some, List.map_cons, hx]
          constructor
          · intro h'; injection h' with h'; injection h' with h2 h3; subst h2; subst h3; rw [h1]
          · intro h'
            injection h' with h2 h3
            have := (ih c).mpr h3
            rw [h] at this
            injection h2 with h2; injection this with this; subst h2; subst this; rfl

theorem parse_iff (s : Text) (c : Cell) : Cell.parse s = some c ↔ s ≠ [] ∧ s.map Dot.ofChar = c.map some := by
  unfold Cell.parse
  by_cases h : s = []
  · simp [h]
  · rw [if_neg h]; simp [h, dotsOf_iff]

theorem splitOn_ne_nil (sep : Char) (s : Text) : splitOn sep s ≠ [] := by
  cases s with
  | nil => simp [splitOn]
  | cons c cs =>
    unfold splitOn
    split
    · simp
    · split <;> simp

theorem splitOn_append (sep : Char) (s rest : Text) (h : sep ∉ s) :
    splitOn sep (s ++ sep :: rest) = s :: splitOn sep rest := by
  induction s with
  | nil => simp [splitOn]
  | cons c s ih =>
    have h1 : c ≠ sep := fun e => h (by simp [e])
    have h2 : sep ∉ s := fun e => h (List.mem_cons_of_mem _ e)
    rw [List.cons_append, splitOn, if_neg h1, ih h2]

theorem splitOn_none (sep : Char) (s : Text) (h : sep ∉ s) : splitOn sep s = [s] := by
  induction s with
  | nil => rfl
  | cons c s ih =>
    have h1 : c ≠ sep := fun e => h (by simp [e])
    have h2 : sep ∉ s := fun e => h (List.mem_cons_of_mem _ e)
    unfold splitOn
    rw [if_neg h1, ih h2]

theorem splitOn_cases (sep : Char) (s : Text) :
    (sep ∉ s) ∨ ∃ p rest, s = p ++ sep :: rest ∧ sep ∉ p := by
  induction s with
  | nil => left; simp
  | cons c s ih =>
    by_cases h : c = sep
    · right; exact ⟨[], s, by simp [h], by simp⟩
    · rcases ih with h1 | ⟨p, rest, h1, h2⟩
      · left; simp [h1, Ne.symm h]
      · right; exact ⟨c :: p, rest, by simp [h1], by simp [h2, Ne.symm h]⟩

theorem ofChar_dash_not_mem (s : Text) (c : Cell) (h : s.map Dot.ofChar = c.map some) : '-' ∉ s := by
  intro hm
  have : Dot.ofChar '-' ∈ s.map Dot.ofChar := List.mem_map_of_mem hm
  rw [h] at this
  simp only [List.mem_map] at this
  obtain ⟨d, _, hd⟩ := this
  have : Dot.ofChar '-' = none := by decide
  rw [this] at hd; cases hd

/-- **C54**: a dots operand is accepted exactly when it is a `-`-separated sequence of non-empty groups of dot names, and
then gives, group by group, the cells with exactly those dots. -/
theorem C54_dots_operand (s : Text) (cs : Cells) : Cells.parse s = some cs ↔ Denotes s cs := by
  constructor
  · intro h
    -- strong induction on the length of the operand
    have key : ∀ n s cs, s.length ≤ n → Cells.parse s = some cs → Denotes s cs := by
      intro n
      induction n with
      | zero =>
        intro s cs hn h
        have : s = [] := List.length_eq_zero_iff.mp (by omega)
        subst this
        simp [Cells.parse, splitOn, allSome, Cell.parse] at h
      | succ n ih =>
        intro s cs hn h
        rcases splitOn_cases '-' s with hs | ⟨p, rest, hs, hp⟩
        · unfold Cells.parse at h
          rw [splitOn_none _ _ hs] at h
          cases hc : Cell.parse s with
          | none => simp [allSome, hc] at h
          | some c =>
            simp [allSome, hc] at h
            subst h
            obtain ⟨h1, h2⟩ := (parse_iff s c).mp hc
            exact .last s c h1 h2
        · unfold Cells.parse at h
          rw [hs, splitOn_append _ _ _ hp] at h
          cases hc : Cell.parse p with
          | none => simp [allSome, hc] at h
          | some c =>
            cases hr : allSome Cell.parse (splitOn '-' rest) with
            | none => simp [allSome, hc, hr] at h
            | some cs' =>
              simp [allSome, hc, hr] at h
              subst h
              obtain ⟨h1, h2⟩ := (parse_iff p c).mp hc
              rw [hs]
              refine .more p c rest cs' h1 h2 (ih rest cs' ?_ hr)
              rw [hs] at hn; simp at hn; omega
    exact key s.length s cs (Nat.le_refl _) h
  · intro h
    induction h with
    | last s c hs hc =>
      unfold Cells.parse
      rw [splitOn_none _ _ (ofChar_dash_not_mem s c hc)]
      simp [allSome, (parse_iff s c).mpr ⟨hs, hc⟩]
    | more s c rest cs hs hc _ ih =>
      unfold Cells.parse at ih ⊢
      rw [splitOn_append _ _ _ (ofChar_dash_not_mem s c hc)]
      simp [allSome, (parse_iff s c).mpr ⟨hs, hc⟩, ih]

/-- **C54**: the dot names, as written in a table: the digits and `a` to `f`, in this order, name the sixteen dots. -/
theorem C54_dot_names (c : Char) (d : Dot) : Dot.ofChar c = some d ↔ (c, d) ∈ "0123456789abcdef".toList.zip
    [.d0, .d1, .d2, .d3, .d4, .d5, .d6, .d7, .d8, .d9, .da, .db, .dc, .dd, .de, .df] := by
  constructor
  · intro h
    unfold Dot.ofChar at h
    split at h <;> first | (rw [Option.some.injEq] at h; subst h; decide) | cases h
  · intro h
    have : (c, d) ∈ [('0', Dot.d0), ('1', .d1), ('2', .d2), ('3', .d3), ('4', .d4), ('5', .d5), ('6', .d6), ('7', .d7),
      ('8', .d8), ('9', .d9), ('a', .da), ('b', .db), ('c', .dc), ('d', .dd), ('e', .de), ('f', .df)] := h
    simp only [List.mem_cons, List.not_mem_nil, or_false, Prod.mk.injEq] at this
    rcases this with h | h | h | h | h | h | h | h | h | h | h | h | h | h | h | h <;> obtain ⟨rfl, rfl⟩ := h <;> rfl

/-- Concrete operands: `123-45` is accepted, `1--2`, the empty operand and `1g` are not. -/
example : Cells.parse "123-45".toList = some [[.d1, .d2, .d3], [.d4, .d5]] ∧ Cells.parse "1--2".toList = none ∧
    Cells.parse [] = none ∧ Cells.parse "1g".toList = none := by decide

end Louis
