import Verif.Props.OperandPieces
import Verif.Lemmas.DecEq

/-!
# C55: the parsers of multipass tests and actions accept exactly their grammars
-/

namespace Louis

theorem orReject_ok {α : Type} {o : Option α} {a : α} (h : orReject o = .ok a) : o = some a := by
  cases o with
  | none => cases h
  | some b => cases h; rfl

theorem orReject_not_fuel {α : Type} (o : Option α) : orReject o ≠ .error .fuel := by
  cases o <;> simp [orReject]

/-! ## Attributes -/

theorem opAttrsFrom_sound : ∀ (s : Text) (acc attrs : List Attr) (r : Text), opAttrsFrom acc s = (attrs, r) →
    ∃ (ds : Text) (as : List Attr), s = ds ++ r ∧ ds.map testAttr = as.map some ∧ attrs = as.foldl addNew acc := by
  intro s
  induction s with
  | nil => intro acc attrs r h; cases h; exact ⟨[], [], rfl, rfl, rfl⟩
  | cons c s ih =>
    intro acc attrs r h
    rw [opAttrsFrom] at h
    cases hc : testAttr c with
    | none => rw [hc] at h; cases h; exact ⟨[], [], rfl, rfl, rfl⟩
    | some a =>
      rw [hc] at h
      obtain ⟨ds, as, rfl, hm, rfl⟩ := ih _ _ _ h
      exact ⟨c :: ds, a :: as, rfl, by simp [hm, hc], rfl⟩

theorem opAttrsFrom_complete : ∀ (ds : Text) (as acc : List Attr) (r : Text), ds.map testAttr = as.map some →
    (∀ c, r.head? = some c → testAttr c = none) → opAttrsFrom acc (ds ++ r) = (as.foldl addNew acc, r) := by
  intro ds
  induction ds with
  | nil =>
    intro as acc r h hr
    cases as with
    | nil =>
      cases r with
      | nil => rfl
      | cons c r => rw [List.nil_append, opAttrsFrom, hr c rfl]; rfl
    | cons a as => simp at h
  | cons c ds ih =>
    intro as acc r h hr
    cases as with
    | nil => simp at h
    | cons a as =>
      simp only [List.map_cons, List.cons.injEq] at h
      rw [List.cons_append, opAttrsFrom, h.1]
      exact ih as _ r h.2 hr

theorem quantifier_head {qs r : Text} {q : Option Quantifier} (h : QuantifierSrc qs q) (hr : Follows r) :
    ∀ c, (qs ++ r).head? = some c → isDigit c = true ∨ c = '.' ∨ r.head? = some c := by
  intro c hc
  cases h with
  | absent => exact .inr (.inr hc)
  | some => simp at hc; exact .inr (.inl hc.symm)
  | number ds v h =>
    obtain ⟨d, es, rfl, hd⟩ := h.head
    simp at hc; subst hc; exact .inl hd
  | range ds es v w h h' hlt =>
    obtain ⟨d, es, rfl, hd⟩ := h.head
    simp at hc; subst hc; exact .inl hd

theorem digit_mem {c : Char} (h : isDigit c = true) : c ∈ ['0', '1', '2', '3', '4', '5', '6', '7', '8', '9'] := by
  have := (digit_lookup c (c.toNat - '0'.toNat)).mpr ⟨h, rfl⟩
  exact List.mem_of_getElem? this

theorem testAttr_none_quantifier {qs r : Text} {q : Option Quantifier} (h : QuantifierSrc qs q) (hr : Follows r) :
    ∀ c, (qs ++ r).head? = some c → testAttr c = none := by
  intro c hc
  rcases quantifier_head h hr c hc with hd | rfl | hc
  · have := digit_mem hd
    simp only [List.mem_cons, List.not_mem_nil, or_false] at this
    rcases this with rfl | rfl | rfl | rfl | rfl | rfl | rfl | rfl | rfl | rfl <;> rfl
  · rfl
  · have := follows_not hr (fun c => (testAttr c).isSome) (by decide) c hc
    simpa using this

theorem alpha_false_quantifier {qs r : Text} {q : Option Quantifier} (h : QuantifierSrc qs q) (hr : Follows r) :
    ∀ c, (qs ++ r).head? = some c → isAsciiAlpha c = false := by
  intro c hc
  rcases quantifier_head h hr c hc with hd | rfl | hc
  · have := digit_mem hd
    simp only [List.mem_cons, List.not_mem_nil, or_false] at this
    rcases this with rfl | rfl | rfl | rfl | rfl | rfl | rfl | rfl | rfl | rfl <;> decide
  · decide
  · exact follows_not hr isAsciiAlpha (by decide) c hc

theorem classDigit_not_alpha {c : Char} (h : isClassDigit c = true) : isAsciiAlpha c = false := by
  simp only [isClassDigit, Bool.and_eq_true, decide_eq_true_eq, Char.reduceToNat] at h
  simp only [isAsciiAlpha, Char.reduceToNat, Bool.or_eq_false_iff, Bool.and_eq_false_iff, decide_eq_false_iff_not]
  omega

/-! ## Operators and variables -/

theorem opOperator_sound {s r : Text} {op : Operator} (h : opOperator s = some (op, r)) :
    ∃ os, s = os ++ r ∧ OperatorSrc os op := by
  rw [opOperator.eq_def] at h
  split at h <;> first | cases h | skip
  · exact ⟨['='], rfl, .eq⟩
  · exact ⟨['<', '='], rfl, .ltEq⟩
  · exact ⟨['<'], rfl, .lt⟩
  · exact ⟨['>', '='], rfl, .gtEq⟩
  · exact ⟨['>'], rfl, .gt⟩

theorem opOperator_complete {os r : Text} {op : Operator} (h : OperatorSrc os op)
    (hr : ∃ c es, r = c :: es ∧ isDigit c = true) : opOperator (os ++ r) = some (op, r) := by
  obtain ⟨c, es, rfl, hc⟩ := hr
  have hne : c ≠ '=' := isDigit_ne hc (by decide)
  cases h with
  | eq => rfl
  | ltEq => rfl
  | gtEq => rfl
  | lt =>
    rw [opOperator.eq_def]
    split <;> rename_i h <;> simp at h
    · exact absurd h.1 hne
    · obtain ⟨rfl, rfl⟩ := h; rfl
    · rename_i h1 h2 h3; exact absurd rfl (h2 _ _)
  | gt =>
    rw [opOperator.eq_def]
    split <;> rename_i h <;> simp at h
    · exact absurd h.1 hne
    · obtain ⟨rfl, rfl⟩ := h; rfl

/-! ## Tests: what is accepted is in the grammar -/

theorem opTestClass_sound {s r : Text} {t : TestInstr} (h : opTestClass s = some (t, r)) :
    ∃ src, '%' :: s = src ++ r ∧ TestSrc src t := by
  cases s with
  | nil => cases h
  | cons c s =>
    rw [opTestClass] at h
    split at h
    · rename_i hc; cases h; exact ⟨['%', c], rfl, .clsDigit c hc⟩
    · simp only at h
      split at h
      · cases h
      · rename_i hne
        obtain ⟨⟨q, r'⟩, hq, he⟩ := Option.map_eq_some_iff.mp h
        cases he
        obtain ⟨qs, hqs, hsrc⟩ := opQuantifier_sound hq
        refine ⟨_, ?_, .cls _ qs _ hne (takeWhile_all _ _) hsrc⟩
        rw [List.append_assoc, ← hqs, List.cons_append, List.takeWhile_append_dropWhile]

theorem opTestAttrs_sound {s r : Text} {t : TestInstr} (h : opTestAttrs s = some (t, r)) :
    ∃ src, '$' :: s = src ++ r ∧ TestSrc src t := by
  simp only [opTestAttrs] at h
  split at h
  · cases h
  · rename_i hne
    obtain ⟨⟨q, r'⟩, hq, he⟩ := Option.map_eq_some_iff.mp h
    cases he
    obtain ⟨qs, hqs, hsrc⟩ := opQuantifier_sound hq
    obtain ⟨ds, as, hds, hm, has⟩ := opAttrsFrom_sound s [] _ _ rfl
    rw [has] at hne ⊢
    refine ⟨_, ?_, .attributes ds qs as _ ?_ hm hsrc⟩
    · simp only at hqs ⊢
      rw [List.append_assoc, ← hqs, List.cons_append, ← hds]
    · rintro rfl
      cases as with
      | nil => exact hne rfl
      | cons a as => simp at hm

theorem opLookback_sound {s r : Text} {t : TestInstr} (h : opLookback s = some (t, r)) :
    ∃ src, '_' :: s = src ++ r ∧ TestSrc src t := by
  cases s with
  | nil => cases h; exact ⟨['_'], rfl, .lookback⟩
  | cons c s =>
    rw [opLookback.eq_def] at h
    simp only at h
    split at h
    · obtain ⟨⟨v, r'⟩, hn, he⟩ := Option.map_eq_some_iff.mp h
      cases he
      obtain ⟨ds, hds, hv, _⟩ := (asciiNumber_iff _ _ _).mp hn
      exact ⟨'_' :: ds, by rw [hds]; rfl, .lookbackN ds _ hv⟩
    · cases h; exact ⟨['_'], rfl, .lookback⟩

theorem opTestVar_sound {s r : Text} {t : TestInstr} (h : opTestVar s = some (t, r)) :
    ∃ src, '#' :: s = src ++ r ∧ TestSrc src t := by
  rw [opTestVar] at h
  split at h
  · cases h
  · rename_i v s' hn
    obtain ⟨ds, rfl, hv, _⟩ := (asciiNumber_iff _ _ _).mp hn
    split at h
    · cases h
    · rename_i op s'' ho
      obtain ⟨os, rfl, hos⟩ := opOperator_sound ho
      obtain ⟨⟨w, r'⟩, hw, he⟩ := Option.map_eq_some_iff.mp h
      cases he
      obtain ⟨es, rfl, hes, _⟩ := (asciiNumber_iff _ _ _).mp hw
      exact ⟨'#' :: ds ++ (os ++ es), by simp, .varTest ds os es v _ op hv hos hes⟩

theorem tests_sound (n : Nat) : (∀ s t r, opTest n s = .ok (t, r) → ∃ src, s = src ++ r ∧ TestSrc src t) ∧
    (∀ s ts r, opTests n s = .ok (ts, r) → ∃ src, s = src ++ r ∧ TestsSrc src ts ∧
      ∀ c, r.head? = some c → isTest c = false) := by
  induction n with
  | zero =>
    constructor
    · intro s t r h; rw [opTest] at h; cases h
    · intro s t r h; rw [opTests] at h; cases h
  | succ n ih =>
    constructor
    · intro s t r h
      cases s with
      | nil => rw [opTest] at h; cases h
      | cons c s =>
        rw [opTest] at h
        split at h
        · subst c; exact opLookback_sound (orReject_ok h)
        split at h
        · subst c; exact opTestClass_sound (orReject_ok h)
        split at h
        · subst c
          obtain ⟨⟨t', r'⟩, hd, he⟩ := Option.map_eq_some_iff.mp (orReject_ok h)
          cases he
          obtain ⟨ds, cells, rfl, hden, hte⟩ := opDots_iff_sound hd
          exact ⟨'@' :: ds, rfl, hte ▸ .dots ds cells hden⟩
        split at h
        · subst c
          obtain ⟨⟨t', r'⟩, hd, he⟩ := Option.map_eq_some_iff.mp (orReject_ok h)
          cases he
          obtain ⟨body, rfl, hs⟩ := opString_sound _ _ _ _ hd
          exact ⟨'"' :: body ++ ['"'], by simp, .string body _ hs⟩
        split at h
        · subst c; exact opTestAttrs_sound (orReject_ok h)
        split at h
        · subst c
          split at h
          · cases h
          · rename_i ts s' hts
            cases h
            obtain ⟨src, rfl, hsrc, _⟩ := ih.2 _ _ _ hts
            exact ⟨'[' :: src ++ [']'], by simp, .replace src ts hsrc⟩
          · cases h
        split at h
        · subst c; exact opTestVar_sound (orReject_ok h)
        split at h
        · subst c
          split at h
          · cases h
          · cases h
          · cases h
          · rename_i t' s' hn hr ht
            cases h
            obtain ⟨src, rfl, hsrc⟩ := ih.1 _ _ _ ht
            exact ⟨'!' :: src, rfl, .negate src t' hsrc (fun u e => hn u e) (fun u e => hr u e)⟩
        split at h
        · subst c; cases h; exact ⟨['`'], rfl, .atBeginning⟩
        split at h
        · subst c; cases h; exact ⟨['~'], rfl, .atEnd⟩
        · cases h
    · intro s ts r h
      cases s with
      | nil => rw [opTests] at h; cases h; exact ⟨[], rfl, .nil, by simp⟩
      | cons c s =>
        rw [opTests] at h
        split at h
        · split at h
          · cases h
          · rename_i t s' ht
            obtain ⟨src, hsrc, htest⟩ := ih.1 _ _ _ ht
            split at h
            · cases h
            · rename_i ts' s'' hts
              cases h
              obtain ⟨src', rfl, htests, hstop⟩ := ih.2 _ _ _ hts
              exact ⟨src ++ src', by rw [hsrc]; simp, .cons src src' t ts' htest htests, hstop⟩
        · rename_i hc
          cases h
          exact ⟨[], rfl, .nil, by intro d hd; simp at hd; subst hd; simpa using hc⟩

/-! ## Tests: what is in the grammar is accepted -/

theorem TestSrc.head {src : Text} {t : TestInstr} (h : TestSrc src t) : ∃ c es, src = c :: es ∧ isTest c = true := by
  cases h <;> exact ⟨_, _, rfl, by decide⟩

theorem TestsSrc.follows {src : Text} {ts : List TestInstr} (h : TestsSrc src ts) {r : Text} (hr : Follows r) :
    Follows (src ++ r) := by
  cases h with
  | nil => exact hr
  | cons src rest t ts h more =>
    obtain ⟨c, es, rfl, hc⟩ := h.head
    intro d hd
    simp at hd; subst hd; exact .inl hc

theorem opLookback_complete {r : Text} (hr : Follows r) : opLookback r = some (.lookback 1, r) := by
  cases r with
  | nil => rfl
  | cons c r =>
    rw [opLookback.eq_def]
    simp only [follows_not hr isDigit (by decide) c rfl]
    rfl

theorem tests_complete (N : Nat) :
    (∀ src t, src.length ≤ N → TestSrc src t → ∀ n r, 2 * src.length ≤ n → Follows r → opTest n (src ++ r) = .ok (t, r)) ∧
    (∀ src ts, src.length ≤ N → TestsSrc src ts → ∀ n r, 2 * src.length + 1 ≤ n → Follows r →
      (∀ c, r.head? = some c → isTest c = false) → opTests n (src ++ r) = .ok (ts, r)) := by
  induction N using Nat.strongRecOn with
  | ind N ih =>
    have hone : ∀ src t, src.length ≤ N → TestSrc src t → ∀ n r, 2 * src.length ≤ n → Follows r →
        opTest n (src ++ r) = .ok (t, r) := by
      intro src t hN h n r hn hr
      have hdig := follows_not hr isDigit (by decide)
      have hpos : 0 < src.length := by obtain ⟨c, es, rfl, _⟩ := h.head; simp
      obtain ⟨n, rfl⟩ : ∃ m, n = m + 1 := ⟨n - 1, by omega⟩
      cases h with
      | lookback =>
        rw [List.singleton_append, opTest, if_pos rfl, opLookback_complete hr]; rfl
      | lookbackN ds v h =>
        rw [List.cons_append, opTest, if_pos rfl]
        obtain ⟨c, es, rfl, hc⟩ := h.head
        rw [opLookback.eq_def]
        simp only [List.cons_append, if_pos hc]
        rw [show c :: (es ++ r) = (c :: es) ++ r from rfl, asciiNumber_complete h hdig]
        rfl
      | clsDigit c h =>
        rw [List.cons_append, opTest, if_neg (by decide), if_pos rfl, List.cons_append, opTestClass, if_pos h]; rfl
      | cls name qs q hne ha hq =>
        rw [show ('%' :: name ++ qs) ++ r = '%' :: (name ++ (qs ++ r)) by simp, opTest, if_neg (by decide), if_pos rfl]
        obtain ⟨c, es, rfl⟩ := List.exists_cons_of_ne_nil hne
        have hc : isClassDigit c = false := by
          cases hc : isClassDigit c with
          | false => rfl
          | true => have h1 := ha c (by simp); rw [classDigit_not_alpha hc] at h1; cases h1
        have hsplit := takeWhile_split isAsciiAlpha (c :: es) (qs ++ r) ha (alpha_false_quantifier hq hr)
        rw [List.cons_append] at hsplit ⊢
        rw [opTestClass, hc]
        simp only [hsplit.1, hsplit.2]
        rw [opQuantifier_complete hq hr]
        rfl
      | dots ds cells h =>
        rw [List.cons_append, opTest, if_neg (by decide), if_neg (by decide), if_pos rfl,
          opDots_complete h (follows_not hr isDotOrDash (by decide))]
        rfl
      | string body s h =>
        rw [show ('"' :: body ++ ['"']) ++ r = '"' :: (body ++ '"' :: r) by simp, opTest, if_neg (by decide),
          if_neg (by decide), if_neg (by decide), if_pos rfl, opString_complete h _ _ (by simp; omega)]
        rfl
      | attributes ds qs attrs q hne h hq =>
        rw [show ('$' :: ds ++ qs) ++ r = '$' :: (ds ++ (qs ++ r)) by simp, opTest, if_neg (by decide),
          if_neg (by decide), if_neg (by decide), if_neg (by decide), if_pos rfl, opTestAttrs,
          opAttrsFrom_complete ds attrs [] _ h (testAttr_none_quantifier hq hr)]
        simp only
        rw [if_neg, opQuantifier_complete hq hr]
        · rfl
        · intro e
          have := (distinct_eq_nil attrs).mp e
          subst this
          simp at h
          exact hne h
      | replace src' ts h =>
        simp only [List.length_append, List.length_cons, List.length_nil] at hn hN
        rw [show ('[' :: src' ++ [']']) ++ r = '[' :: (src' ++ ']' :: r) by simp, opTest, if_neg (by decide),
          if_neg (by decide), if_neg (by decide), if_neg (by decide), if_neg (by decide), if_pos rfl,
          (ih (N - 1) (by omega)).2 src' ts (by omega) h n (']' :: r) (by omega)
            (by intro c hc; simp at hc; subst hc; exact .inr (.inr rfl)) (by intro c hc; simp at hc; subst hc; decide)]
        rfl
      | varTest ds os es v w op hv ho hw =>
        rw [show ('#' :: ds ++ (os ++ es)) ++ r = '#' :: (ds ++ (os ++ (es ++ r))) by simp, opTest, if_neg (by decide),
          if_neg (by decide), if_neg (by decide), if_neg (by decide), if_neg (by decide), if_neg (by decide), if_pos rfl,
          opTestVar, asciiNumber_complete hv]
        · simp only
          rw [opOperator_complete ho]
          · simp only
            rw [asciiNumber_complete hw hdig]
            rfl
          · obtain ⟨c, es', rfl, hc⟩ := hw.head
            exact ⟨c, es' ++ r, rfl, hc⟩
        · intro c hc
          cases ho <;> (simp at hc; subst hc; decide)
      | negate src' t h hn' hr' =>
        simp only [List.length_cons] at hn hN
        rw [List.cons_append, opTest, if_neg (by decide), if_neg (by decide), if_neg (by decide), if_neg (by decide),
          if_neg (by decide), if_neg (by decide), if_neg (by decide), if_pos rfl,
          (ih (N - 1) (by omega)).1 src' t (by omega) h n r (by omega) hr]
        split
        · rename_i he; cases he
        · rename_i he; cases he; exact absurd rfl (hn' _)
        · rename_i he; cases he; exact absurd rfl (hr' _)
        · rename_i he; cases he; rfl
      | atBeginning => rfl
      | atEnd => rfl
    refine ⟨hone, ?_⟩
    intro src ts hN h n r hn hr hstop
    obtain ⟨n, rfl⟩ : ∃ m, n = m + 1 := ⟨n - 1, by omega⟩
    cases h with
    | nil =>
      cases r with
      | nil => rfl
      | cons c r => rw [List.nil_append, opTests, if_neg (by rw [hstop c rfl]; decide)]
    | cons src' rest t ts h more =>
      have hN' : rest.length + src'.length ≤ N := by rw [List.length_append] at hN; omega
      have hn' : 2 * src'.length + 2 * rest.length ≤ n := by rw [List.length_append] at hn; omega
      obtain ⟨c, es, he, hc⟩ := h.head
      have hpos : 0 < src'.length := by rw [he]; simp
      have h1 := hone src' t (by omega) h n (rest ++ r) (by omega) (more.follows hr)
      have h2 := (ih (N - 1) (by omega)).2 rest ts (by omega) more n r (by omega) hr hstop
      rw [List.append_assoc]
      rw [he, List.cons_append] at h1 ⊢
      rw [opTests, if_pos hc, h1]
      simp only [h2]

/-- C55: the operand of a multipass test is accepted exactly if it is a nonempty sequence of tests, and it is read as that
sequence. -/
theorem C55_test_grammar (s : Text) (ts : List TestInstr) : parseTest s = .ok ts ↔ TestsSrc s ts ∧ ts ≠ [] := by
  constructor
  · intro h
    rw [parseTest] at h
    split at h
    · cases h
    · cases h
    · rename_i ts' hne hts
      cases h
      obtain ⟨src, hs, hsrc, _⟩ := (tests_sound _).2 _ _ _ hts
      rw [List.append_nil] at hs
      exact ⟨hs ▸ hsrc, fun e => hne e⟩
    · cases h
  · rintro ⟨h, hne⟩
    have := (tests_complete s.length).2 s ts (by omega) h (2 * s.length + 1) [] (by omega) (by intro c hc; simp at hc)
      (by intro c hc; simp at hc)
    rw [List.append_nil] at this
    rw [parseTest, this]
    cases ts with
    | nil => exact absurd rfl hne
    | cons t ts => rfl

/-! ## Actions -/

theorem opActionVar_sound {s r : Text} {a : ActionInstr} (h : opActionVar s = some (a, r)) :
    (∃ src, '#' :: s = src ++ r ∧ ActionSrc src a) ∨ ∃ c, (c = '+' ∨ c = '-') ∧ r.head? = some c := by
  rw [opActionVar] at h
  split at h
  · cases h
  · rename_i v s' hn
    obtain ⟨ds, rfl, hv, _⟩ := (asciiNumber_iff _ _ _).mp hn
    split at h
    · obtain ⟨⟨w, r'⟩, hw, he⟩ := Option.map_eq_some_iff.mp h
      cases he
      obtain ⟨es, rfl, hes, _⟩ := (asciiNumber_iff _ _ _).mp hw
      exact .inl ⟨'#' :: ds ++ '=' :: es, by simp, .assignment ds es v _ hv hes⟩
    · cases h; exact .inr ⟨'+', .inl rfl, rfl⟩
    · cases h; exact .inr ⟨'-', .inr rfl, rfl⟩
    · cases h

theorem opAction_sound {s r : Text} {a : ActionInstr} (h : opAction s = some (a, r)) :
    (∃ src, s = src ++ r ∧ ActionSrc src a) ∨ ∃ c, (c = '+' ∨ c = '-') ∧ r.head? = some c := by
  rw [opAction.eq_def] at h
  split at h
  · obtain ⟨⟨t', r'⟩, hd, he⟩ := Option.map_eq_some_iff.mp h
    cases he
    obtain ⟨ds, cells, rfl, hden, hte⟩ := opDots_iff_sound hd
    exact .inl ⟨'@' :: ds, rfl, hte ▸ .dots ds cells hden⟩
  · obtain ⟨⟨t', r'⟩, hd, he⟩ := Option.map_eq_some_iff.mp h
    cases he
    obtain ⟨body, rfl, hs⟩ := opString_sound _ _ _ _ hd
    exact .inl ⟨'"' :: body ++ ['"'], by simp, .string body _ hs⟩
  · cases h; exact .inl ⟨['*'], rfl, .replace⟩
  · cases h; exact .inl ⟨['?'], rfl, .ignore⟩
  · exact opActionVar_sound h
  · simp only [opActionClass] at h
    split at h
    · cases h
    · rename_i s' hne
      cases h
      refine .inl ⟨'%' :: s'.takeWhile isAsciiAlpha, ?_, .swapClass _ hne (takeWhile_all _ _)⟩
      rw [List.cons_append, List.takeWhile_append_dropWhile]
  · cases h

theorem ActionSrc.head {src : Text} {a : ActionInstr} (h : ActionSrc src a) : ∃ c es, src = c :: es ∧ isAction c = true := by
  cases h <;> exact ⟨_, _, rfl, by decide⟩

theorem ActionsSrc.follows {src : Text} {as : List ActionInstr} (h : ActionsSrc src as) : Follows src := by
  cases h with
  | nil => intro c hc; simp at hc
  | cons src rest a as h more =>
    obtain ⟨c, es, rfl, hc⟩ := h.head
    intro d hd
    simp at hd; subst hd; exact .inr (.inl hc)

/-- The remainder is empty, or cannot continue. -/
theorem opActions_sound : ∀ (n : Nat) (s r : Text) (as : List ActionInstr), opActions n s = .ok (as, r) →
    r ≠ [] ∨ ActionsSrc s as := by
  intro n
  induction n with
  | zero => intro s r as h; rw [opActions] at h; cases h
  | succ n ih =>
    intro s r as h
    cases s with
    | nil => rw [opActions] at h; cases h; exact .inr .nil
    | cons c s =>
      rw [opActions] at h
      split at h
      · split at h
        · cases h
        · rename_i a s' ha
          split at h
          · cases h
          · rename_i as' s'' has
            cases h
            rcases opAction_sound ha with ⟨src, hs, hsrc⟩ | ⟨d, hd, hh⟩
            · rcases ih _ _ _ has with hne | hrest
              · exact .inl hne
              · exact .inr (hs ▸ .cons src s' a as' hsrc hrest)
            · left
              cases s' with
              | nil => cases hh
              | cons e s' =>
                simp at hh; subst hh
                cases n with
                | zero => rw [opActions] at has; cases has
                | succ n =>
                  rw [opActions, if_neg (by rcases hd with rfl | rfl <;> decide)] at has
                  cases has
                  simp
      · cases h; exact .inl (by simp)

theorem opAction_complete {src r : Text} {a : ActionInstr} (h : ActionSrc src a) (hr : Follows r) :
    opAction (src ++ r) = some (a, r) := by
  have hdig := follows_not hr isDigit (by decide)
  cases h with
  | dots ds cells h =>
    rw [List.cons_append, opAction, opDots_complete h (follows_not hr isDotOrDash (by decide))]; rfl
  | string body s h =>
    rw [show ('"' :: body ++ ['"']) ++ r = '"' :: (body ++ '"' :: r) by simp, opAction,
      opString_complete h _ _ (by simp; omega)]
    rfl
  | replace => rfl
  | ignore => rfl
  | assignment ds es v w hv hw =>
    rw [show ('#' :: ds ++ '=' :: es) ++ r = '#' :: (ds ++ ('=' :: (es ++ r))) by simp, opAction, opActionVar,
      asciiNumber_complete hv (by intro c hc; simp at hc; subst hc; decide)]
    simp only
    rw [asciiNumber_complete hw hdig]
    rfl
  | swapClass name hne ha =>
    have := takeWhile_split isAsciiAlpha name r ha (follows_not hr isAsciiAlpha (by decide))
    rw [List.cons_append, opAction, opActionClass]
    simp only [this.1, this.2]
    rw [if_neg hne]

theorem opActions_complete {s : Text} {as : List ActionInstr} (h : ActionsSrc s as) : ∀ n, s.length < n →
    opActions n s = .ok (as, []) := by
  induction h with
  | nil => intro n hn; cases n with
    | zero => simp at hn
    | succ n => rfl
  | cons src rest a as h more ih =>
    intro n hn
    cases n with
    | zero => simp at hn
    | succ n =>
      have h1 := opAction_complete h more.follows
      obtain ⟨c, es, rfl, hc⟩ := h.head
      rw [List.cons_append] at h1 hn ⊢
      simp only [List.length_cons, List.length_append] at hn
      rw [opActions, if_pos hc, h1]
      simp only
      rw [ih n (by omega)]

/-- C55: the operand of a multipass action is accepted exactly if it is a nonempty sequence of actions, and it is read as that
sequence. -/
theorem C55_action_grammar (s : Text) (as : List ActionInstr) : parseAction s = .ok as ↔ ActionsSrc s as ∧ as ≠ [] := by
  constructor
  · intro h
    rw [parseAction] at h
    split at h
    · cases h
    · cases h
    · rename_i as' hne has
      cases h
      rcases opActions_sound _ _ _ _ has with h | h
      · exact absurd rfl h
      · exact ⟨h, fun e => hne e⟩
    · cases h
  · rintro ⟨h, hne⟩
    rw [parseAction, opActions_complete h _ (by omega)]
    cases as with
    | nil => exact absurd rfl hne
    | cons t ts => rfl

/-! ## No run out of fuel -/

theorem TestSrc.pos {src : Text} {t : TestInstr} (h : TestSrc src t) : 0 < src.length := by
  obtain ⟨c, es, rfl, _⟩ := h.head; simp

theorem tests_no_fuel (n : Nat) : (∀ s, 2 * s.length ≤ n → 0 < n → opTest n s ≠ .error .fuel) ∧
    (∀ s, 2 * s.length + 1 ≤ n → opTests n s ≠ .error .fuel) := by
  induction n with
  | zero => exact ⟨fun s _ h => absurd h (by omega), fun s h => absurd h (by omega)⟩
  | succ n ih =>
    constructor
    · intro s hs _ h
      cases s with
      | nil => rw [opTest] at h; cases h
      | cons c s =>
        simp only [List.length_cons] at hs
        rw [opTest] at h
        repeat' (split at h)
        all_goals first | exact orReject_not_fuel _ h | cases h | skip
        · rename_i heq; exact ih.2 s (by omega) heq
        · rename_i heq; exact ih.1 s (by omega) (by omega) heq
    · intro s hs h
      cases s with
      | nil => rw [opTests] at h; cases h
      | cons c s =>
        simp only [List.length_cons] at hs
        rw [opTests] at h
        split at h
        · split at h
          · rename_i heq
            cases h
            exact ih.1 (c :: s) (by simp only [List.length_cons]; omega) (by omega) heq
          · rename_i t s' heq
            obtain ⟨src, he, hsrc⟩ := (tests_sound n).1 _ _ _ heq
            have hp := hsrc.pos
            have hl : s'.length + src.length = s.length + 1 := by
              have := congrArg List.length he
              simp at this; omega
            split at h
            · rename_i heq'
              cases h
              exact ih.2 s' (by omega) heq'
            · cases h
        · cases h

theorem opAction_shorter {s r : Text} {a : ActionInstr} (h : opAction s = some (a, r)) : r.length < s.length := by
  have hv : ∀ s r a, opActionVar s = some (a, r) → r.length < s.length + 1 := by
    intro s r a h
    rw [opActionVar] at h
    split at h
    · cases h
    · rename_i v s' hn
      obtain ⟨ds, rfl, hv, _⟩ := (asciiNumber_iff _ _ _).mp hn
      split at h
      · obtain ⟨⟨w, r'⟩, hw, he⟩ := Option.map_eq_some_iff.mp h
        cases he
        obtain ⟨es, rfl, hes, _⟩ := (asciiNumber_iff _ _ _).mp hw
        simp; omega
      · cases h; simp; omega
      · cases h; simp; omega
      · cases h
  cases s with
  | nil => simp [opAction] at h
  | cons c s =>
    by_cases hc : c = '#'
    · subst hc
      have : opActionVar s = some (a, r) := h
      exact hv _ _ _ this
    · rw [opAction.eq_def] at h
      split at h
      · rename_i s' heq
        cases heq
        obtain ⟨⟨t', r'⟩, hd, he⟩ := Option.map_eq_some_iff.mp h
        cases he
        obtain ⟨ds, cells, rfl, hden, hte⟩ := opDots_iff_sound hd
        simp; omega
      · rename_i s' heq
        cases heq
        obtain ⟨⟨t', r'⟩, hd, he⟩ := Option.map_eq_some_iff.mp h
        cases he
        obtain ⟨body, rfl, hs⟩ := opString_sound _ _ _ _ hd
        simp; omega
      · rename_i s' heq; cases heq; cases h; simp
      · rename_i s' heq; cases heq; cases h; simp
      · rename_i s' heq; cases heq; exact absurd rfl hc
      · rename_i s' heq
        cases heq
        simp only [opActionClass] at h
        split at h
        · cases h
        · cases h
          have := (List.dropWhile_sublist isAsciiAlpha (l := s)).length_le
          simp only [List.length_cons]; omega
      · cases h

theorem opActions_no_fuel : ∀ (n : Nat) (s : Text), s.length < n → opActions n s ≠ .error .fuel := by
  intro n
  induction n with
  | zero => intro s h; omega
  | succ n ih =>
    intro s hs h
    cases s with
    | nil => rw [opActions] at h; cases h
    | cons c s =>
      rw [opActions] at h
      split at h
      · split at h
        · cases h
        · rename_i a s' ha
          have := opAction_shorter ha
          simp only [List.length_cons] at hs this
          split at h
          · rename_i heq
            cases h
            exact ih s' (by omega) heq
          · cases h
      · cases h

/-- C55: the parser of tests terminates. -/
theorem parseTest_no_fuel (s : Text) : parseTest s ≠ .error .fuel := by
  intro h
  rw [parseTest] at h
  split at h
  · rename_i heq; cases h; exact (tests_no_fuel _).2 s (by omega) heq
  all_goals cases h

/-- C55: the parser of actions terminates. -/
theorem parseAction_no_fuel (s : Text) : parseAction s ≠ .error .fuel := by
  intro h
  rw [parseAction] at h
  split at h
  · rename_i heq; cases h; exact opActions_no_fuel _ s (by omega) heq
  all_goals cases h

/-- A test with every kind of piece. -/
example : ∃ ts, parseTest "_2%1%abc2-3@12-3\"x\\\"\"$dl.[\"a\"]#1<=5!$s`~".toList = .ok ts ∧ ts.length = 11 :=
  ⟨[.lookback 2, .cls ['1'] none, .cls ['a', 'b', 'c'] (some (.range 2 3)), .dots ['⠃', '⠄'], .string ['x', '"'],
    .attributes [.cls .digit, .cls .letter] (some .oneOrMore), .replace [.string ['a']], .varTest 1 .ltEq 5,
    .negate (.attributes [.cls .space] none), .atBeginning, .atEnd], by decide +kernel, by decide⟩

end Louis
