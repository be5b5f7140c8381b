import Verif.Spec.Operand

/-!
# The pieces of the operand parsers accept exactly their grammars (C55)
-/

namespace Louis

theorem takeWhile_split {α : Type} (p : α → Bool) (a b : List α) (ha : ∀ c ∈ a, p c = true)
    (hb : ∀ c, b.head? = some c → p c = false) : (a ++ b).takeWhile p = a ∧ (a ++ b).dropWhile p = b := by
  induction a with
  | nil =>
    cases b with
    | nil => simp
    | cons x b => have := hb x rfl; simp [this]
  | cons x a ih =>
    have hx := ha x (by simp)
    have := ih fun c hc => ha c (by simp [hc])
    simp [hx, this.1, this.2]

theorem takeWhile_all {α : Type} (p : α → Bool) (s : List α) : ∀ c ∈ s.takeWhile p, p c = true := by
  induction s with
  | nil => simp
  | cons x s ih =>
    intro c hc
    rw [List.takeWhile_cons] at hc
    split at hc
    · rcases List.mem_cons.mp hc with rfl | hc
      · assumption
      · exact ih c hc
    · cases hc

theorem dropWhile_head {α : Type} (p : α → Bool) (s : List α) : ∀ c, (s.dropWhile p).head? = some c → p c = false := by
  induction s with
  | nil => simp
  | cons x s ih =>
    intro c hc
    rw [List.dropWhile_cons] at hc
    split at hc
    · exact ih c hc
    · rename_i hp; simp at hc; subst hc; simpa using hp

/-! ## Numbers -/

theorem digit_lookup (c : Char) (d : Nat) :
    ['0', '1', '2', '3', '4', '5', '6', '7', '8', '9'][d]? = some c ↔ isDigit c = true ∧ d = c.toNat - '0'.toNat := by
  constructor
  · intro h
    have hd : d < 10 := by
      have := (List.getElem?_eq_some_iff.mp h).1
      simpa using this
    have key : ∀ d, d < 10 → ∀ c, ['0', '1', '2', '3', '4', '5', '6', '7', '8', '9'][d]? = some c →
        isDigit c = true ∧ d = c.toNat - '0'.toNat := by
      intro d hd
      match d, hd with
      | 0, _ | 1, _ | 2, _ | 3, _ | 4, _ | 5, _ | 6, _ | 7, _ | 8, _ | 9, _ =>
        intro c hc; simp at hc; subst hc; decide
    exact key d hd c h
  · rintro ⟨h, rfl⟩
    have hn : 48 ≤ c.toNat ∧ c.toNat ≤ 57 := by
      simp only [isDigit, Bool.and_eq_true, decide_eq_true_eq] at h
      exact h
    have hc : c = Char.ofNat c.toNat := (Char.ofNat_toNat c).symm
    have key : ∀ n, 48 ≤ n → n ≤ 57 → ['0', '1', '2', '3', '4', '5', '6', '7', '8', '9'][n - 48]? = some (Char.ofNat n) := by
      intro n h1 h2
      have : n = 48 ∨ n = 49 ∨ n = 50 ∨ n = 51 ∨ n = 52 ∨ n = 53 ∨ n = 54 ∨ n = 55 ∨ n = 56 ∨ n = 57 := by omega
      rcases this with h | h | h | h | h | h | h | h | h | h <;> subst h <;> rfl
    have := key c.toNat hn.1 hn.2
    rw [← hc] at this
    exact this

theorem decFrom_append (ds es : Text) (acc : Nat) : decFrom acc (ds ++ es) = decFrom (decFrom acc ds) es := by
  induction ds generalizing acc with
  | nil => rfl
  | cons d ds ih => exact ih _

theorem decValue_iff (ds : Text) (v : Nat) : DecValue ds v ↔ (∀ c ∈ ds, isDigit c = true) ∧ decFrom 0 ds = v := by
  constructor
  · intro h
    induction h with
    | nil => exact ⟨by simp, rfl⟩
    | snoc ds v d c _ hd ih =>
      rw [digit_lookup] at hd
      refine ⟨?_, ?_⟩
      · intro x hx
        rcases List.mem_append.mp hx with hx | hx
        · exact ih.1 x hx
        · simp at hx; subst hx; exact hd.1
      · rw [decFrom_append, ih.2, hd.2]; rfl
  · rintro ⟨h, rfl⟩
    induction hl : ds.length generalizing ds with
    | zero => have := List.length_eq_zero_iff.mp hl; subst this; exact .nil
    | succ n ih =>
      rcases List.eq_nil_or_concat ds with rfl | ⟨es, c, rfl⟩
      · simp at hl
      · rw [List.concat_eq_append] at *
        rw [decFrom_append]
        refine .snoc es _ _ c (ih es (fun x hx => h x (by simp [hx])) (by simpa using hl)) ?_
        exact (digit_lookup _ _).mpr ⟨h c (by simp), rfl⟩

theorem numberSrc_iff (ds : Text) (v : Nat) :
    NumberSrc ds v ↔ ds ≠ [] ∧ (∀ c ∈ ds, isDigit c = true) ∧ decFrom 0 ds = v ∧ v ≤ 255 := by
  rw [NumberSrc, decValue_iff]; grind

theorem asciiNumber_iff (s r : Text) (v : Nat) : asciiNumber s = some (v, r) ↔
    ∃ ds, s = ds ++ r ∧ NumberSrc ds v ∧ ∀ c, r.head? = some c → isDigit c = false := by
  constructor
  · intro h
    simp only [asciiNumber] at h
    split at h
    · cases h
    · rename_i hn
      simp only [not_or, Nat.not_lt] at hn
      cases h
      exact ⟨_, List.takeWhile_append_dropWhile.symm, (numberSrc_iff _ _).mpr ⟨hn.1, takeWhile_all _ _, rfl, by omega⟩,
        dropWhile_head _ _⟩
  · rintro ⟨ds, rfl, h, hr⟩
    rw [numberSrc_iff] at h
    have := takeWhile_split isDigit ds r h.2.1 hr
    simp only [asciiNumber, this.1, this.2]
    rw [if_neg (by have := h.2.2; simp only [not_or, h.1, not_false_eq_true, true_and]; omega), h.2.2.1]

theorem asciiNumber_complete {ds r : Text} {v : Nat} (h : NumberSrc ds v) (hr : ∀ c, r.head? = some c → isDigit c = false) :
    asciiNumber (ds ++ r) = some (v, r) := (asciiNumber_iff _ _ _).mpr ⟨ds, rfl, h, hr⟩

theorem NumberSrc.head {ds : Text} {v : Nat} (h : NumberSrc ds v) : ∃ c es, ds = c :: es ∧ isDigit c = true := by
  rw [numberSrc_iff] at h
  match ds, h with
  | [], h => exact absurd rfl h.1
  | c :: es, h => exact ⟨c, es, rfl, h.2.1 c (by simp)⟩

/-! ## Quantifiers -/

/-- What follows a test or action: nothing, the start of another, or the end of a replacement. -/
def Follows (r : Text) : Prop := ∀ c, r.head? = some c → isTest c = true ∨ isAction c = true ∨ c = ']'

theorem follows_mem {r : Text} (h : Follows r) {c : Char} (hc : r.head? = some c) :
    c ∈ ['_', '%', '@', '"', '$', '[', '#', '!', '`', '~', '*', '?', ']'] := by
  have := h c hc
  simp only [isTest, isAction, Bool.or_eq_true, beq_iff_eq] at this
  simp only [List.mem_cons, List.not_mem_nil, or_false]
  grind

theorem follows_not {r : Text} (h : Follows r) (p : Char → Bool)
    (hp : (['_', '%', '@', '"', '$', '[', '#', '!', '`', '~', '*', '?', ']'].all fun c => !p c) = true) :
    ∀ c, r.head? = some c → p c = false := by
  intro c hc
  have := List.all_eq_true.mp hp c (follows_mem h hc)
  simpa using this

theorem follows_ne {r : Text} (h : Follows r) (d : Char)
    (hp : d ∉ ['_', '%', '@', '"', '$', '[', '#', '!', '`', '~', '*', '?', ']']) : r.head? ≠ some d :=
  fun hc => hp (follows_mem h hc)

theorem isDigit_ne {c d : Char} (h : isDigit c = true) (hd : isDigit d = false) : c ≠ d := by
  intro e; rw [e, hd] at h; cases h

theorem opQuantifier_sound {s r : Text} {q : Option Quantifier} (h : opQuantifier s = some (q, r)) :
    ∃ qs, s = qs ++ r ∧ QuantifierSrc qs q := by
  rw [opQuantifier.eq_def] at h
  split at h
  · cases h; exact ⟨['.'], rfl, .some⟩
  · cases h; exact ⟨[], rfl, .absent⟩
  · split at h
    · split at h
      · cases h
      · rename_i min s hn
        obtain ⟨ds, hds, hv, _⟩ := (asciiNumber_iff _ _ _).mp hn
        split at h
        · cases h
        · rename_i max s' hn'
          obtain ⟨es, hes, hw, _⟩ := (asciiNumber_iff _ _ _).mp hn'
          split at h
          · cases h
          · rename_i hlt
            cases h
            exact ⟨ds ++ '-' :: es, by rw [hds, hes]; simp, .range ds es _ _ hv hw (by omega)⟩
      · rename_i n s hne hn
        cases h
        obtain ⟨ds, hds, hv, _⟩ := (asciiNumber_iff _ _ _).mp hn
        exact ⟨ds, hds, .number ds _ hv⟩
    · cases h; exact ⟨[], rfl, .absent⟩

theorem opQuantifier_complete {qs r : Text} {q : Option Quantifier} (h : QuantifierSrc qs q) (hr : Follows r) :
    opQuantifier (qs ++ r) = some (q, r) := by
  have hdig := follows_not hr isDigit (by decide)
  cases h with
  | absent =>
    rw [opQuantifier.eq_def]
    split
    · rename_i s he; exact absurd (by rw [List.nil_append] at he; rw [he]; rfl) (follows_ne hr '.' (by decide))
    · rename_i he; simp at he; rw [he]
    · rename_i c s hd he
      rw [List.nil_append] at he
      have := hdig c (by rw [he]; rfl)
      rw [this, he]; rfl
  | some => rfl
  | number ds v h =>
    obtain ⟨c, es, rfl, hc⟩ := h.head
    rw [List.cons_append, opQuantifier.eq_def]
    split
    · rename_i s he; cases he; exact absurd hc (by decide)
    · rename_i he; cases he
    · rename_i c' s hd he
      cases he
      rw [if_pos hc, show c :: (es ++ r) = (c :: es) ++ r from rfl, asciiNumber_complete h hdig]
      split
      · rename_i h1; cases h1
      · rename_i h1; cases h1; exact absurd rfl (follows_ne hr '-' (by decide))
      · rename_i h1; cases h1; rfl
  | range ds es v w h h' hlt =>
    obtain ⟨c, ds', rfl, hc⟩ := h.head
    rw [show (c :: ds' ++ '-' :: es) ++ r = c :: (ds' ++ '-' :: (es ++ r)) by simp, opQuantifier.eq_def]
    split
    · rename_i s he; cases he; exact absurd hc (by decide)
    · rename_i he; cases he
    · rename_i c' s hd he
      cases he
      rw [if_pos hc, show c :: (ds' ++ '-' :: (es ++ r)) = (c :: ds') ++ ('-' :: (es ++ r)) from rfl,
        asciiNumber_complete h (by intro c hc; simp at hc; subst hc; decide)]
      simp only
      rw [asciiNumber_complete h' hdig]
      simp only
      rw [if_neg (by omega)]

/-! ## Dots -/

theorem denotes_chars {ds : Text} {cells : Cells} (h : Denotes ds cells) : ds ≠ [] ∧ ∀ c ∈ ds, isDotOrDash c = true := by
  have hcell : ∀ (s : Text) (cell : Cell), s.map Dot.ofChar = cell.map some → ∀ c ∈ s, isDotOrDash c = true := by
    intro s cell hs c hc
    have : Dot.ofChar c ∈ s.map Dot.ofChar := List.mem_map_of_mem hc
    rw [hs] at this
    obtain ⟨d, _, hd⟩ := List.mem_map.mp this
    simp [isDotOrDash, ← hd]
  induction h with
  | last s c hne hs => exact ⟨hne, hcell s c hs⟩
  | more s c rest cs hne hs _ ih =>
    refine ⟨by simp, ?_⟩
    intro x hx
    simp only [List.mem_append, List.mem_cons] at hx
    rcases hx with hx | rfl | hx
    · exact hcell s c hs x hx
    · decide
    · exact ih.2 x hx

theorem opDots_iff_sound {s r t : Text} (h : opDots s = some (t, r)) :
    ∃ ds cells, s = ds ++ r ∧ Denotes ds cells ∧ t = cells.toText := by
  simp only [opDots] at h
  split at h
  · cases h
  · rw [Option.map_eq_some_iff] at h
    obtain ⟨cells, hp, he⟩ := h
    cases he
    exact ⟨_, cells, List.takeWhile_append_dropWhile.symm, (C54_dots_operand _ _).mp hp, rfl⟩

theorem opDots_complete {ds r : Text} {cells : Cells} (h : Denotes ds cells)
    (hr : ∀ c, r.head? = some c → isDotOrDash c = false) : opDots (ds ++ r) = some (cells.toText, r) := by
  have hc := denotes_chars h
  have := takeWhile_split isDotOrDash ds r hc.2 hr
  simp only [opDots, this.1, this.2]
  rw [if_neg hc.1, (C54_dots_operand _ _).mpr h]
  rfl

/-! ## Strings -/

theorem opUnicode_iff (len : Nat) (hlen : 0 < len) (s r : Text) (c : Char) : opUnicode len s = some (c, r) ↔
    ∃ ds, s = ds ++ r ∧ Literal len ds c.toNat := by
  constructor
  · intro h
    simp only [opUnicode] at h
    split at h
    · cases h
    · rename_i hl
      split at h
      · cases h
      · rename_i v hv
        split at h
        · rename_i hval
          cases h
          have hlen' : (s.take len).length = len := by simp; omega
          refine ⟨s.take len, (List.take_append_drop _ _).symm, hlen', ?_⟩
          rw [toNat_ofNat_valid hval]
          exact (hexNumber_iff _ _ (by intro e; rw [e] at hlen'; simp at hlen'; omega)).mp hv
        · cases h
  · rintro ⟨ds, rfl, h⟩
    have hne : ds ≠ [] := by intro e; rw [e] at h; have := h.1; simp at this; omega
    simp only [opUnicode]
    rw [if_neg (by simp [h.1]), List.take_left' h.1, List.drop_left' h.1, (hexNumber_iff _ _ hne).mpr h.2]
    simp only
    rw [if_pos (show c.toNat.isValidChar from c.valid), Char.ofNat_toNat]

theorem opString_sound : ∀ (n : Nat) (s t r : Text), opString n s = some (t, r) → ∃ body, s = body ++ '"' :: r ∧ StringSrc body t := by
  intro n
  induction n with
  | zero => intro s t r h; cases s <;> simp [opString] at h
  | succ n ih =>
    intro s t r h
    rw [opString.eq_def] at h
    split at h
    · cases h
    · cases h
    · rename_i n' c s heq
      cases heq
      split at h
      · rename_i hc; cases h; subst hc; exact ⟨[], rfl, .done⟩
      · rename_i hq
        split at h
        · rename_i hb
          obtain ⟨⟨t', r'⟩, ht, he⟩ := Option.map_eq_some_iff.mp h
          cases he
          obtain ⟨body, rfl, hs⟩ := ih _ _ _ ht
          exact ⟨c :: body, rfl, .plain c _ _ ⟨hq, hb⟩ hs⟩
        · rename_i hb
          have hc : c = '\\' := Decidable.byContradiction hb
          subst hc
          split at h
          · cases h
          · obtain ⟨⟨t', r'⟩, ht, he⟩ := Option.map_eq_some_iff.mp h
            cases he
            obtain ⟨body, rfl, hs⟩ := ih _ _ _ ht
            exact ⟨'\\' :: 's' :: body, rfl, .space _ _ hs⟩
          · obtain ⟨⟨t', r'⟩, ht, he⟩ := Option.map_eq_some_iff.mp h
            cases he
            obtain ⟨body, rfl, hs⟩ := ih _ _ _ ht
            exact ⟨'\\' :: '"' :: body, rfl, .quote _ _ hs⟩
          · split at h
            · cases h
            · rename_i c s' hu
              obtain ⟨ds, rfl, hl⟩ := (opUnicode_iff 4 (by omega) _ _ _).mp hu
              obtain ⟨⟨t', r'⟩, ht, he⟩ := Option.map_eq_some_iff.mp h
              cases he
              obtain ⟨body, rfl, hs⟩ := ih _ _ _ ht
              exact ⟨'\\' :: 'x' :: ds ++ body, by simp, .number 'x' 4 ds c _ _ (by simp) hl hs⟩
          · split at h
            · cases h
            · rename_i c s' hu
              obtain ⟨ds, rfl, hl⟩ := (opUnicode_iff 5 (by omega) _ _ _).mp hu
              obtain ⟨⟨t', r'⟩, ht, he⟩ := Option.map_eq_some_iff.mp h
              cases he
              obtain ⟨body, rfl, hs⟩ := ih _ _ _ ht
              exact ⟨'\\' :: 'y' :: ds ++ body, by simp, .number 'y' 5 ds c _ _ (by simp) hl hs⟩
          · rename_i h0 h1 h2 h3 h4
            obtain ⟨⟨t', r'⟩, ht, he⟩ := Option.map_eq_some_iff.mp h
            cases he
            obtain ⟨body, rfl, hs⟩ := ih _ _ _ ht
            cases body with
            | nil => exact absurd rfl (h2 _)
            | cons c body =>
              refine ⟨'\\' :: c :: body, rfl, .backslash c _ _ ?_ hs⟩
              simp only [List.mem_cons, List.not_mem_nil, or_false, not_or]
              refine ⟨?_, ?_, ?_, ?_⟩ <;> rintro rfl
              · exact h1 _ rfl
              · exact h2 _ rfl
              · exact h3 _ rfl
              · exact h4 _ rfl

theorem opString_complete {body t : Text} (h : StringSrc body t) : ∀ (n : Nat) (r : Text), body.length < n →
    opString n (body ++ '"' :: r) = some (t, r) := by
  induction h with
  | done => intro n r hn; cases n with
    | zero => simp at hn
    | succ n => simp [opString]
  | plain c s t hc _ ih =>
    intro n r hn
    cases n with
    | zero => simp at hn
    | succ n =>
      simp only [List.length_cons] at hn
      rw [List.cons_append, opString.eq_def]
      simp only [if_neg hc.1, if_pos hc.2, ih n r (by omega)]
      rfl
  | space s t _ ih =>
    intro n r hn
    cases n with
    | zero => simp at hn
    | succ n =>
      simp only [List.length_cons] at hn
      simp [opString, ih n r (by omega)]
  | quote s t _ ih =>
    intro n r hn
    cases n with
    | zero => simp at hn
    | succ n =>
      simp only [List.length_cons] at hn
      simp [opString, ih n r (by omega)]
  | number e len ds c s t he hd _ ih =>
    intro n r hn
    cases n with
    | zero => simp at hn
    | succ n =>
      simp only [List.length_cons, List.length_append] at hn
      have hih := ih n r (by omega)
      simp only [List.mem_cons, Prod.mk.injEq, List.not_mem_nil, or_false] at he
      rcases he with ⟨rfl, rfl⟩ | ⟨rfl, rfl⟩
      · have hu := (opUnicode_iff 4 (by omega) (ds ++ (s ++ '"' :: r)) (s ++ '"' :: r) c).mpr ⟨ds, rfl, hd⟩
        simp [opString, hu, hih]
      · have hu := (opUnicode_iff 5 (by omega) (ds ++ (s ++ '"' :: r)) (s ++ '"' :: r) c).mpr ⟨ds, rfl, hd⟩
        simp [opString, hu, hih]
  | backslash c s t hc _ ih =>
    intro n r hn
    cases n with
    | zero => simp at hn
    | succ n =>
      simp only [List.length_cons] at hn
      have hih := ih n r (by simp only [List.length_cons]; omega)
      simp only [List.mem_cons, List.not_mem_nil, or_false, not_or] at hc
      rw [List.cons_append, opString.eq_def]
      simp only [if_neg (show ¬ '\\' = '"' by decide), if_neg (show ¬ '\\' ≠ '\\' by decide)]
      split
      · rename_i h; cases h
      · rename_i h; cases h; exact absurd rfl hc.1
      · rename_i h; cases h; exact absurd rfl hc.2.1
      · rename_i h; cases h; exact absurd rfl hc.2.2.1
      · rename_i h; cases h; exact absurd rfl hc.2.2.2
      · rw [hih]; rfl

/-! ## Sets without duplicates -/

theorem foldl_addNew_append {α : Type} [DecidableEq α] (l : List α) (acc : List α) :
    l.foldl addNew acc = [] ↔ acc = [] ∧ l = [] := by
  induction l generalizing acc with
  | nil => simp
  | cons a l ih =>
    simp only [List.foldl_cons, ih, addNew]
    split
    · rename_i h; constructor
      · rintro ⟨rfl, _⟩; cases h
      · rintro ⟨_, h⟩; cases h
    · simp

theorem distinct_eq_nil {α : Type} [DecidableEq α] (l : List α) : distinct l = [] ↔ l = [] := by
  rw [distinct, foldl_addNew_append]; simp

/-- `distinct` has the same members. -/
theorem mem_distinct {α : Type} [DecidableEq α] (l : List α) (a : α) : a ∈ distinct l ↔ a ∈ l := by
  have : ∀ (l acc : List α), a ∈ l.foldl addNew acc ↔ a ∈ acc ∨ a ∈ l := by
    intro l
    induction l with
    | nil => simp
    | cons b l ih =>
      intro acc
      rw [List.foldl_cons, ih, addNew]
      split <;> grind
  rw [distinct, this]; simp

/-- `distinct` has no duplicates. -/
theorem nodup_distinct {α : Type} [DecidableEq α] (l : List α) : (distinct l).Nodup := by
  have : ∀ (l acc : List α), acc.Nodup → (l.foldl addNew acc).Nodup := by
    intro l
    induction l with
    | nil => intro acc h; exact h
    | cons b l ih =>
      intro acc h
      refine ih _ ?_
      rw [addNew]
      split
      · exact h
      · rename_i hb; exact List.nodup_append.mpr ⟨h, by simp, by intro x hx y hy e; simp at hy; subst hy; subst e; exact hb hx⟩
  exact this l [] List.nodup_nil

end Louis
