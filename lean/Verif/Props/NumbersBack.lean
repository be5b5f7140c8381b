import Verif.Props.LetterNumbers

/-!
# C88: uncontracted braille whose digits have the cells of letters, read back
-/

namespace Louis

variable {sys : Sys} {rules : List Anchored} {p : Primary} {sign num : Char}

/-! ## The table -/

theorem ReadableNumbers.same (h : ReadableNumbers sign num rules) : ∀ r ∈ rules, ∀ r' ∈ rules, ∀ c dots c' dots',
    r.rule.Defines c dots → r'.rule.Defines c' dots' → dots <+: dots' → dots = dots' := by
  intro r hr r' hr' c dots c' dots' hd hd' hp
  rcases h.unambiguous r hr r' hr' c dots c' dots' hd hd' hp with e | ⟨e, -⟩
  · subst e
    exact h.one _ _ _ (.direct hr hd) (.direct hr' hd')
  · exact e

/-- A letter line with the cells of the letter. -/
theorem letterLine_defines (h : LetterByLetter sign (some num) rules) {q r : Anchored} (hq : q ∈ rules) (hr : r ∈ rules) {c : Char} {w : Text}
    (hl : q.rule.LetterLine c) (hd : r.rule.Defines c w) : q.rule.Defines c w := by
  obtain ⟨k, cells, cons, e, -⟩ := hl
  have hd' : q.rule.Defines c cells.toText := by rw [e]; exact .inl ⟨_, _, _, rfl, rfl⟩
  rwa [h.one _ _ _ (.direct hr hd) (.direct hq hd')]

theorem digitLine_defines (h : LetterByLetter sign (some num) rules) {q r : Anchored} (hq : q ∈ rules) (hr : r ∈ rules) {c : Char} {w : Text}
    (hl : q.rule.DigitLine c) (hd : r.rule.Defines c w) : q.rule.Defines c w := by
  obtain ⟨k, cells, cons, e, -⟩ := hl
  have hd' : q.rule.Defines c cells.toText := by rw [e]; exact .inl ⟨_, _, _, rfl, rfl⟩
  rwa [h.one _ _ _ (.direct hr hd) (.direct hq hd')]

/-- The line of a letter or digit is for one character. -/
theorem letterLine_not_digit {r : Rule} {c c' : Char} (h : r.LetterLine c) : ¬ r.DigitLine c' := by
  obtain ⟨k, cells, cons, rfl, hk⟩ := h
  rintro ⟨k', cells', cons', e, hk'⟩
  cases e
  rcases hk with rfl | rfl | rfl <;> rcases hk' with e | e <;> cases e

/-- Where no number is, the cells of a character that is not a digit are read as it. -/
theorem letter_first_reads (h : ReadableNumbers sign num rules) {w : Text} {low : Char} {r : Anchored} (hr : r ∈ rules)
    (hd : r.rule.Defines low w) (hnot : ∀ q ∈ rules, ¬ q.rule.DigitLine low) :
    ∃ k, ReadAs (mainTable ((TableCtx.compile sys.alpha rules).prim .backward) .backward
      (tableOps (TableCtx.compile sys.alpha rules) .backward rules)) w [low] k := by
  obtain ⟨c, k, ⟨pre, q, post, e, hq, hfirst⟩, hk⟩ := first_reads (sys := sys) h.toSignsApart h.above h.same hr hd
  have hqr : q ∈ rules := by rw [e]; simp
  rcases h.unambiguous q hqr r hr _ _ _ _ hq hd (List.prefix_refl _) with e1 | ⟨-, ⟨hdig, hlet⟩ | ⟨-, hdig⟩⟩
  · subst e1
    exact ⟨k, hk⟩
  · exfalso
    have hmem : r ∈ pre ++ q :: post := by rw [← e]; exact hr
    rcases List.mem_append.1 hmem with hm | hm
    · rcases hfirst with hf | ⟨cells, cons, e'⟩
      · exact hf r hm _ hd
      · obtain ⟨k', _, _, e2, hk'⟩ := hdig
        rw [e'] at e2
        cases e2
        rcases hk' with e | e <;> cases e
    · rcases List.mem_cons.1 hm with rfl | hm
      · exact letterLine_not_digit hlet hdig
      · exact h.lettersFirst pre q post e r hm c low w hdig hq hlet hd
  · exact absurd hdig (hnot r hr)

/-! ## Digits -/

/-- The reading of a digit's cell in a number. -/
def readsDigit (sys : Sys) (rules : List Anchored) (p : Primary) (x c : Char) (k : Resolved) : Prop :=
  k.input = [x] ∧ k.output = [c] ∧ k.length = 1 ∧ ∀ (cs : Case) (f : Constraints) (place : Nat), f.preferDigit place = true →
    f.useComp6 place = false → f.dontContract place = false → ∀ rest prev, (∀ y ∈ [x] ++ rest, cs.lower y = [y]) →
      (mainTable ((TableCtx.compile sys.alpha rules).prim .backward) .backward
        (tableOps (TableCtx.compile sys.alpha rules) .backward rules)).step (listing p.table cs.lower) f place ([x] ++ rest) prev =
          some ⟨.line, k⟩

theorem digits_find (hm : MainStage sys (TableCtx.compile sys.alpha rules) .backward rules p) (x : Char) :
    ((mainTable ((TableCtx.compile sys.alpha rules).prim .backward) .backward
      (tableOps (TableCtx.compile sys.alpha rules) .backward rules)).digits.find? (·.1 == x)).map (·.2) =
      (digitReading rules x).map fun y => Resolved.new [x] [y.1] 1 .main (some y.2) := by
  rw [← C62_digit_readings hm x, hm.built.faithful.digits]
  rfl

theorem digitReading_line {x ch : Char} {o : Origin} (h : digitReading rules x = some (ch, o)) :
    ∃ r ∈ rules, r.rule.DigitLine ch ∧ r.rule.Defines ch [x] := by
  obtain ⟨r, hr, h⟩ := latest_of h
  split at h
  · next k ch' cell cons e =>
    split at h
    · next hk =>
      cases h
      refine ⟨r, hr, ⟨k, _, _, e, hk.1⟩, ?_⟩
      rw [e, ← hk.2.1]
      exact .inl ⟨_, _, _, rfl, rfl⟩
    · cases h
  · cases h

theorem digitReading_some {r : Anchored} (hr : r ∈ rules) {c x : Char} (hl : r.rule.DigitLine c) (hd : r.rule.Defines c [x])
    (hx : [x] ∈ letterDotsOf .backward rules) : ∃ y, digitReading rules x = some y := by
  obtain ⟨k, cells, cons, e, hk⟩ := hl
  have : ∃ cell : Cell, cells = [cell] ∧ cell.toUnicode = x := by
    rw [e] at hd
    rcases hd with ⟨k', cells', cons', e', ht⟩ | ⟨cells', e', -⟩
    · cases e'
      have hl : cells.length = 1 := by
        have := congrArg List.length ht
        simpa [Cells.toText] using this.symm
      obtain ⟨cell, rfl⟩ := List.length_eq_one_iff.1 hl
      refine ⟨cell, rfl, ?_⟩
      have ht : [x] = [cell.toUnicode] := ht
      exact (List.cons.inj ht).1.symm
    · cases e'
  obtain ⟨cell, rfl, hcell⟩ := this
  unfold digitReading
  cases hl : latest (fun r => match r.rule with
    | .charDef k ch [cell] _ =>
      if (k = .digit ∨ k = .litdigit) ∧ cell.toUnicode = x ∧ [x] ∈ letterDotsOf .backward rules then some (ch, r.origin) else none
    | _ => none) rules with
  | some y => exact ⟨y, rfl⟩
  | none =>
    exfalso
    unfold latest at hl
    rw [List.getLast?_eq_none_iff, List.filterMap_eq_nil_iff] at hl
    have := hl r hr
    rw [e] at this
    simp only [hk, hcell, hx, and_self, if_true] at this
    cases this

/-- In a number, the cell of a digit is read as the digit. -/
theorem digit_reads (hm : MainStage sys (TableCtx.compile sys.alpha rules) .backward rules p) (h : ReadableNumbers sign num rules)
    {c x : Char} {r : Anchored} (hr : r ∈ rules) (hl : r.rule.DigitLine c) (hd : r.rule.Defines c [x]) :
    ∃ k, readsDigit sys rules p x c k := by
  obtain ⟨c0, k0, hfirst, k1, k2, k3, k4, k5⟩ := first_reads (sys := sys) h.toSignsApart h.above h.same hr hd
  have hfind := digits_find hm x
  cases hdr : digitReading rules x with
  | none =>
    -- no letter has this cell
    have hno : [x] ∉ letterDotsOf .backward rules := by
      intro hx
      obtain ⟨y, hy⟩ := digitReading_some hr hl hd hx
      rw [hdr] at hy; cases hy
    obtain ⟨q, hq, hqd⟩ := hfirst.defines
    have hc : c0 = c := by
      rcases h.unambiguous q hq r hr _ _ _ _ hqd hd (List.prefix_refl _) with e | ⟨-, ⟨-, hlet⟩ | ⟨hlet, -⟩⟩
      · exact e
      · exact absurd hl (letterLine_not_digit hlet)
      · exfalso
        obtain ⟨k, cells, cons, e, hk⟩ := hlet
        apply hno
        rw [C40_letter_cells]
        refine ⟨q, hq, k, c0, cells, cons, e, hk, ?_⟩
        rw [e] at hqd
        rcases hqd with ⟨_, _, _, e', ht⟩ | ⟨_, e', -⟩
        · cases e'; exact ht
        · cases e'
    subst hc
    refine ⟨k0, k1, k2, k3, ?_⟩
    intro cs f place hp hcomp hdont rest prev hlow
    refine step_only (hm.built.faithful.lists cs.lower) (letter_lists h.toLetterByLetter).1 (.inr ?_) hcomp hdont (k4 _ _) prev
      (k5 _ _ _ hlow)
    intro y hy
    have hy : some x = some y := hy
    cases hy
    rw [hdr] at hfind
    exact Option.map_eq_none_iff.1 hfind
  | some y =>
    obtain ⟨ch, o⟩ := y
    obtain ⟨q, hq, hql, hqd⟩ := digitReading_line hdr
    have hc : ch = c := by
      rcases h.unambiguous q hq r hr _ _ _ _ hqd hd (List.prefix_refl _) with e | ⟨-, ⟨-, hlet⟩ | ⟨hlet, -⟩⟩
      · exact e
      · exact absurd hl (letterLine_not_digit hlet)
      · exact absurd hql (letterLine_not_digit hlet)
    subst hc
    refine ⟨Resolved.new [x] [ch] 1 .main (some o), rfl, rfl, rfl, ?_⟩
    intro cs f place hp hcomp hdont rest prev hlow
    rw [hdr] at hfind
    have hL := hm.built.faithful.lists cs.lower
    generalize hT : mainTable ((TableCtx.compile sys.alpha rules).prim .backward) .backward
      (tableOps (TableCtx.compile sys.alpha rules) .backward rules) = T at *
    have hu : T.unbroken = [] := by rw [← hT]; exact (letter_lists h.toLetterByLetter).1
    have ed : T.dir = .backward := by rw [← hT]; rfl
    have l1 := listed_none (l := (listing p.table cs.lower).unbroken ([x] ++ rest) prev) (T := T) (lower := cs.lower)
      (fun o => by rw [← hu]; exact hL.unbroken _ _ o)
    have hdf : ∀ l, T.digitsFirst f place ([x] ++ rest) l = l.filter (·.length != 1) ++ [Resolved.new [x] [ch] 1 .main (some o)] := by
      intro l
      unfold MainTable.digitsFirst
      rw [if_pos ⟨ed, hp⟩]
      show (match ((T.digits.find? (·.1 == x)).map (·.2)) with
        | some digit => _
        | none => l) = _
      rw [hfind]
      rfl
    have hnil : (((listing p.table cs.lower).entries ([x] ++ rest) prev).filter (allowedHere f place)).filter (·.length != 1) = [] := by
      rw [List.filter_eq_nil_iff]
      intro o' ho'
      have := (List.mem_filter.1 ho').1
      rw [hL.entries, k5 _ _ _ hlow] at this
      rw [this, k3]
      simp
    unfold MainTable.step
    rw [l1, hdf, hnil, hcomp, hdont]
    rfl

/-! ## The cells of letters and digits -/

theorem quiet_cells (h : ReadableNumbers sign num rules) {r : Anchored} (hr : r ∈ rules) {defs : CharDefs} {k : CharClass} {x : Char}
    (hp : r.rule.PutsCell sys.alpha defs k x) (hk : k = .letter ∨ k = .digit ∨ k = .litdigit) :
    ∃ kind c, ∃ cell : Cell, ∃ cons, r.rule = .charDef kind c [cell] cons ∧ kind.Within k ∧ x = cell.toUnicode := by
  have hlines := h.lines r hr
  have hmark := h.marked r hr
  generalize r.rule = rule at *
  cases hp with
  | charDef kind c cell cons k hw => exact ⟨kind, c, cell, cons, rfl, hw, rfl⟩
  | decpoint => rcases hk with e | e | e <;> cases e
  | always =>
    exfalso
    rcases hlines with ⟨hq, -⟩ | ⟨_, _, _, _, e, -⟩ | ⟨_, _, e⟩ | ⟨_, _, e, -⟩ | ⟨_, _, -, e, -⟩
    · cases hq
    all_goals cases e
  | attr name chars y c hy hd =>
    exfalso
    rcases hlines with ⟨-, hf, -⟩ | ⟨_, _, _, _, e, -⟩ | ⟨_, _, e⟩ | ⟨_, _, e, -⟩ | ⟨_, _, -, e, -⟩
    · have h1 := (hf name rfl).2
      have h2 : name ≠ "digit".toList := fun e => hmark (by rw [e]; rfl)
      rcases (C43_names name _).1 rfl with ⟨w, e, hw⟩ | ⟨-, e⟩
      · rcases hk with e' | e' | e' <;> rw [e'] at hw <;> simp [namedClasses] at hw
        · subst hw; exact h1 e
        · subst hw; exact h2 e
      · rcases hk with e' | e' | e' <;> rw [e'] at e <;> cases e
    all_goals cases e
  | seqdelimiter => rcases hk with e | e | e <;> cases e
  | seqbeforechars => rcases hk with e | e | e <;> cases e
  | seqafterchars => rcases hk with e | e | e <;> cases e
  | swapcc => rcases hk with e | e | e <;> cases e
  | swapcd => rcases hk with e | e | e <;> cases e
  | swapdd => rcases hk with e | e | e <;> cases e

theorem letterCells_line (h : ReadableNumbers sign num rules) {x : Char}
    (hx : x ∈ (backNumbers sys (TableCtx.compile sys.alpha rules) rules).letters) : LetterCell rules x := by
  rcases List.mem_append.1 hx with hx | hx
  · obtain ⟨pre, r, post, e, hp⟩ := (C43_cells sys.alpha rules .letter x).1 ((mem_members _ _ _).1 hx)
    have hr : r ∈ rules := by rw [e]; simp
    obtain ⟨kind, c, cell, cons, e', hw, rfl⟩ := quiet_cells (sys := sys) h hr hp (.inl rfl)
    refine ⟨r, hr, c, ⟨kind, _, _, e', ?_⟩, by rw [e']; exact .inl ⟨_, _, _, rfl, rfl⟩⟩
    cases hw <;> simp
  · exfalso
    obtain ⟨r, hr, hx⟩ := List.mem_flatMap.1 hx
    split at hx
    · next e' =>
      rcases h.lines r hr with ⟨hq, -⟩ | ⟨_, _, _, _, e, -⟩ | ⟨_, _, e⟩ | ⟨_, _, e, -⟩ | ⟨_, _, -, e, -⟩
      · rw [e'] at hq; cases hq
      all_goals (rw [e'] at e; cases e)
    · cases hx

theorem digitCells_line (h : ReadableNumbers sign num rules) {x : Char} :
    x ∈ (backNumbers sys (TableCtx.compile sys.alpha rules) rules).digits ↔ CellOfDigit rules x := by
  constructor
  · intro hx
    have : ∃ k, (k = CharClass.digit ∨ k = .litdigit) ∧ (TableCtx.compile sys.alpha rules).dots.has k x = true := by
      rcases List.mem_append.1 hx with hx | hx
      · exact ⟨_, .inl rfl, (mem_members _ _ _).1 hx⟩
      · exact ⟨_, .inr rfl, (mem_members _ _ _).1 hx⟩
    obtain ⟨k, hk, hx⟩ := this
    obtain ⟨pre, r, post, e, hp⟩ := (C43_cells sys.alpha rules k x).1 hx
    have hr : r ∈ rules := by rw [e]; simp
    obtain ⟨kind, c, cell, cons, e', hw, rfl⟩ := quiet_cells (sys := sys) h hr hp (.inr hk)
    refine ⟨r, hr, c, ⟨kind, _, _, e', ?_⟩, by rw [e']; exact .inl ⟨_, _, _, rfl, rfl⟩⟩
    rcases hk with rfl | rfl <;> cases hw <;> simp
  · rintro ⟨r, hr, c, ⟨k, cells, cons, e, hk⟩, hd⟩
    rw [e] at hd
    obtain ⟨pre, post, er⟩ := List.append_of_mem hr
    rcases hd with ⟨_, _, _, e', ht⟩ | ⟨_, e', -⟩
    · cases e'
      have hl : cells.length = 1 := by
        have := congrArg List.length ht
        simpa [Cells.toText] using this.symm
      obtain ⟨cell, rfl⟩ := List.length_eq_one_iff.1 hl
      have ht : [x] = [cell.toUnicode] := ht
      have ht := (List.cons.inj ht).1
      subst ht
      rcases hk with rfl | rfl
      · refine List.mem_append_left _ ((mem_members _ _ _).2 ((C43_cells sys.alpha rules .digit _).2 ⟨pre, r, post, er, ?_⟩))
        rw [e]; exact .charDef _ _ _ _ _ .digit
      · refine List.mem_append_right _ ((mem_members _ _ _).2 ((C43_cells sys.alpha rules .litdigit _).2 ⟨pre, r, post, er, ?_⟩))
        rw [e]; exact .charDef _ _ _ _ _ .litdigit
    · cases e'

theorem number_signs (h : ReadableNumbers sign num rules) :
    (backNumbers sys (TableCtx.compile sys.alpha rules) rules).numsign = some [num] ∧
    (backNumbers sys (TableCtx.compile sys.alpha rules) rules).nonumsign = none := by
  constructor
  · obtain ⟨r, hr, cells, e⟩ := h.numbered (by simp)
    have hno : (letterDotsOf .backward rules).contains [num] = false := by
      rw [List.contains_eq_mem, decide_eq_false_iff_not, C40_letter_cells]
      rintro ⟨q, hq, k, c, dots, cons', e', -, ht⟩
      exact h.unsigned num (.inr rfl) q hq c dots.toText (by rw [e']; exact .inl ⟨_, _, _, rfl, rfl⟩) (by rw [← ht]; simp)
    refine backDots_all (f := fun | .numsign dots => some dots | _ => none) ?_ ⟨r, hr, cells, by rw [e]⟩ hno
    intro q hq dots hd
    cases e : q.rule <;> rw [e] at hd <;> first | (cases hd; done) | skip
    cases hd
    rcases h.lines q hq with ⟨hq, -⟩ | ⟨_, _, _, _, e', -⟩ | ⟨_, _, e'⟩ | ⟨_, _, e', -⟩ | ⟨n, _, hn, e', ht⟩
    · rw [e] at hq; cases hq
    · rw [e] at e'; cases e'
    · rw [e] at e'; cases e'
    · rw [e] at e'; cases e'
    · rw [e] at e'; cases e'
      cases hn
      exact ht
  · refine backDots_none (fun | .nonumsign dots _ => some dots | _ => none) _ fun r hr => ?_
    have hl := h.lines r hr
    cases e : r.rule <;> first | rfl | skip
    exfalso
    rw [e] at hl
    rcases hl with ⟨hq, -⟩ | ⟨_, _, _, _, e', -⟩ | ⟨_, _, e'⟩ | ⟨_, _, e', -⟩ | ⟨_, _, -, e', -⟩
    · cases hq
    all_goals cases e'

/-! ## How the signs for numbers are read -/

/-- The right reading of a piece, if the sign for numbers is the cell `n` and none ends them. -/
def FinePiece (d : NumDots) (n : Char) (a : List NumTok) : NumTok → Prop
  | .sign => ∀ c, (numText d a).getLast? = some c → c ∉ d.letters
  | .stop => False
  | .digit x => x ≠ n ∧ NumOpen a ∧ x ∈ d.digits
  | .cell x => x ≠ n ∧ (NumOpen a → x ∉ d.digits)

def AllFine (d : NumDots) (n : Char) : List NumTok → List NumTok → Prop
  | _, [] => True
  | a, t :: ts => FinePiece d n a t ∧ AllFine d n (a ++ [t]) ts

theorem allFine_append {d : NumDots} {n : Char} : ∀ {ts us a : List NumTok}, AllFine d n a ts → AllFine d n (a ++ ts) us →
    AllFine d n a (ts ++ us) := by
  intro ts
  induction ts with
  | nil => intro us a _ h; simpa using h
  | cons t ts ih =>
    rintro us a ⟨h1, h2⟩ h3
    exact ⟨h1, ih h2 (by simpa using h3)⟩

theorem allFine_reading {d : NumDots} {n : Char} (h1 : d.numsign = some [n]) (h2 : d.nonumsign = none) :
    ∀ {ts a : List NumTok}, AllFine d n a ts → ∀ x t y, ts = x ++ t :: y → RightTok d (a ++ x) t (numText d (t :: y)) := by
  intro ts
  induction ts with
  | nil => intro a _ x t y e; simp at e
  | cons t ts ih =>
    rintro a ⟨hf, hr⟩
    refine rightTok_cons ?_ (ih hr)
    have no : ∀ x rest, x ≠ n → ¬ SignHere d (numText d a) (x :: rest) := by
      rintro x rest hx ⟨s, hs, hp, -⟩
      rw [h1] at hs
      cases hs
      exact hx (List.cons_prefix_cons.1 hp).1.symm
    have ns : ∀ rest, ¬ StopHere d rest := by
      rintro rest ⟨s, hs, -⟩
      rw [h2] at hs; cases hs
    cases t with
    | sign =>
      refine ⟨[n], h1, ?_, hf⟩
      show [n] <+: (d.numsign.getD [] ++ numText d ts)
      rw [h1]
      exact List.prefix_append ..
    | stop => exact hf.elim
    | digit x => exact ⟨no x _ hf.1, hf.2.1, ns _, hf.2.2⟩
    | cell x => exact ⟨no x _ hf.1, fun ho => ⟨ns _, hf.2 ho⟩⟩

theorem allFine_cells {d : NumDots} {n : Char} : ∀ {l : Text} {a : List NumTok}, n ∉ l →
    (NumOpen a → ∀ y, l.head? = some y → y ∉ d.digits) → AllFine d n a (l.map .cell) := by
  intro l
  induction l with
  | nil => intros; trivial
  | cons y l ih =>
    intro a hn hd
    refine ⟨⟨fun e => hn (by rw [e]; simp), fun ho => hd ho y rfl⟩, ih (fun hm => hn (by simp [hm])) fun ho => ?_⟩
    exact absurd ho (not_numOpen_end (by simp) (by simp))

/-- The characters of a text with the signs for numbers before them. -/
def withLeads (num : Option Char) (digit : Char → Bool) : Bool → Text → List (Char × Text)
  | _, [] => []
  | after, c :: rest => (c, if digit c && !after then num.toList else []) :: withLeads num digit (digit c) rest

theorem withLeads_chars (num : Option Char) (digit : Char → Bool) : ∀ (text : Text) (after : Bool),
    (withLeads num digit after text).map (·.1) = text := by
  intro text
  induction text with
  | nil => intro; rfl
  | cons c rest ih => intro after; rw [withLeads, List.map_cons, ih]

theorem withLeads_spelled (sign : Char) (num : Option Char) (upper digit : Char → Bool) (code : Char → Text) : ∀ (text : Text)
    (after : Bool), (withLeads num digit after text).flatMap (signedOut sign upper code) = spelledOut sign num upper digit code after text := by
  intro text
  induction text with
  | nil => intro; rfl
  | cons c rest ih =>
    intro after
    rw [withLeads, List.flatMap_cons, ih, spelledOut, signedOut]
    simp only [List.append_assoc]

/-- The pieces of what is written for a character. -/
def piecesOf (sign : Char) (upper digit : Char → Bool) (code : Char → Text) (x : Char × Text) : List NumTok :=
  x.2.map (fun _ => .sign) ++ ((if upper x.1 then [.cell sign] else []) ++ (code x.1).map (if digit x.1 then .digit else .cell))

theorem numText_cells (d : NumDots) (l : Text) : numText d (l.map .cell) = l := by
  induction l with
  | nil => rfl
  | cons x l ih =>
    show [x] ++ numText d (l.map .cell) = _
    rw [ih]; rfl

theorem numText_digits (d : NumDots) (l : Text) : numText d (l.map .digit) = l := by
  induction l with
  | nil => rfl
  | cons x l ih =>
    show [x] ++ numText d (l.map .digit) = _
    rw [ih]; rfl

theorem piecesOf_text {d : NumDots} {n : Char} (h1 : d.numsign = some [n]) {upper digit : Char → Bool} {code : Char → Text}
    {x : Char × Text} (hx : ∀ s ∈ x.2, s = n) : numText d (piecesOf sign upper digit code x) = signedOut sign upper code x := by
  unfold piecesOf signedOut
  rw [numText_append, numText_append]
  congr 1
  · generalize x.2 = l at hx
    induction l with
    | nil => rfl
    | cons s l ih =>
      show d.numsign.getD [] ++ numText d (l.map fun _ => .sign) = _
      rw [ih fun t ht => hx t (by simp [ht]), h1, hx s (by simp)]
      rfl
  · congr 1
    · cases upper x.1 <;> rfl
    · cases digit x.1
      · exact numText_cells d _
      · exact numText_digits d _

theorem withLeads_fine {d : NumDots} {n : Char} (hs : sign ≠ n) (hsd : sign ∉ d.digits) {upper digit : Char → Bool}
    {code : Char → Text} : ∀ (rest : Text) (a : List NumTok) (after : Bool), (after = true ↔ NumOpen a) →
    (∀ c ∈ rest, code c ≠ [] ∧ n ∉ code c ∧ (digit c = true → upper c = false ∧ ∃ x, code c = [x] ∧ x ∈ d.digits)) →
    (∀ c post, rest = c :: post → (digit c = true → after = false → ∀ y, (numText d a).getLast? = some y → y ∉ d.letters) ∧
      (after = true → digit c = false → upper c = false → ∀ y, (code c).head? = some y → y ∉ d.digits)) →
    (∀ pre c c' post, rest = pre ++ c :: c' :: post →
      (digit c' = true → digit c = false → ∀ y, (code c).getLast? = some y → y ∉ d.letters) ∧
      (digit c = true → digit c' = false → upper c' = false → ∀ y, (code c').head? = some y → y ∉ d.digits)) →
    AllFine d n a ((withLeads (some n) digit after rest).flatMap (piecesOf sign upper digit code)) := by
  intro rest
  induction rest with
  | nil => intros; trivial
  | cons c rest ih =>
    intro a after hopen hchars hstart hpairs
    obtain ⟨hne, hn, hdig⟩ := hchars c (by simp)
    obtain ⟨hst1, hst2⟩ := hstart c rest rfl
    rw [withLeads, List.flatMap_cons]
    have hpairs' : ∀ pre c' c'' post, rest = pre ++ c' :: c'' :: post → _ := fun pre c' c'' post e => hpairs (c :: pre) c' c'' post (by rw [e]; rfl)
    have hchars' : ∀ c' ∈ rest, _ := fun c' hc => hchars c' (by simp [hc])
    cases hdc : digit c with
    | true =>
      obtain ⟨hup, x, hx, hxd⟩ := hdig hdc
      have hxn : x ≠ n := by rintro rfl; exact hn (by rw [hx]; simp)
      cases after with
      | true =>
        have ho := hopen.1 rfl
        have e : piecesOf sign upper digit code (c, if true && !true then (some n).toList else []) = [.digit x] := by
          unfold piecesOf; rw [hup, hdc, hx]; rfl
        rw [e]
        refine allFine_append ⟨⟨hxn, ho, hxd⟩, trivial⟩ (ih _ _ ⟨fun _ => numOpen_digit x ho, fun _ => rfl⟩ hchars' ?_ hpairs')
        intro c' post er
        exact ⟨fun _ h => (nomatch h), fun _ hd hu => (hpairs [] c c' post (by rw [er]; rfl)).2 hdc hd hu⟩
      | false =>
        have e : piecesOf sign upper digit code (c, if true && !false then (some n).toList else []) = [.sign, .digit x] := by
          unfold piecesOf; rw [hup, hdc, hx]; rfl
        rw [e]
        have ho : NumOpen (a ++ [.sign]) := numOpen_sign a
        refine allFine_append ⟨hst1 hdc rfl, ⟨hxn, ho, hxd⟩, trivial⟩ (ih _ _ ⟨fun _ => ?_, fun _ => rfl⟩ hchars' ?_ hpairs')
        · have := numOpen_digit x ho
          simpa using this
        · intro c' post er
          exact ⟨fun _ h => (nomatch h), fun _ hd hu => (hpairs [] c c' post (by rw [er]; rfl)).2 hdc hd hu⟩
    | false =>
      have e : piecesOf sign upper digit code (c, if false && !after then (some n).toList else []) =
          (if upper c then [.cell sign] else []) ++ (code c).map .cell := by
        unfold piecesOf; rw [hdc]; rfl
      rw [e]
      have hlast : ∃ u y, code c = u ++ [y] := by
        rcases List.eq_nil_or_concat (code c) with h | ⟨u, y, h⟩
        · exact absurd h hne
        · exact ⟨u, y, by rw [h, List.concat_eq_append]⟩
      obtain ⟨u, y, hu⟩ := hlast
      refine allFine_append ?_ (ih _ _ ⟨fun h => (nomatch h), fun ho => ?_⟩ hchars' ?_ hpairs')
      · cases hup : upper c with
        | true =>
          refine ⟨⟨hs, fun _ => hsd⟩, allFine_cells hn fun ho => ?_⟩
          exact absurd ho (not_numOpen_end (by simp) (by simp))
        | false => exact allFine_cells hn fun ho => hst2 (hopen.2 ho) hdc hup
      · exfalso
        rw [hu, List.map_append, ← List.append_assoc, ← List.append_assoc] at ho
        exact not_numOpen_end (by simp) (by simp) ho
      · intro c' post er
        refine ⟨fun hd _ z hz => ?_, fun h => nomatch h⟩
        refine (hpairs [] c c' post (by rw [er]; rfl)).1 hd hdc z ?_
        rw [numText_append, numText_append, numText_cells, hu, ← List.append_assoc, ← List.append_assoc] at hz
        rw [hu]
        simpa using hz

/-- A cell is in a number exactly where its piece is a digit. -/
theorem digitCell_iff {d : NumDots} {n : Char} (h1 : d.numsign = some [n]) (h2 : d.nonumsign = none) {toks : List NumTok}
    (hf : AllFine d n [] toks) {text : Text} (ht : numText d toks = text) (pos : Nat) :
    DigitCell d text pos ↔ ∃ z, toks[pos]? = some (.digit z) := by
  have hr := allFine_reading h1 h2 hf
  have wf : d.Wf := ⟨by rw [h1]; simp, by rw [h2]; simp⟩
  have one : ∀ t ∈ toks, (t.text d).length = 1 := by
    intro t htk
    obtain ⟨x, y, e⟩ := List.append_of_mem htk
    have := hr x t y e
    cases t with
    | sign => show (d.numsign.getD []).length = 1; rw [h1]; rfl
    | stop =>
      obtain ⟨-, -, s, hs, -⟩ := this
      rw [h2] at hs; cases hs
    | digit c => rfl
    | cell c => rfl
  have len : ∀ l : List NumTok, (∀ t ∈ l, (t.text d).length = 1) → (numText d l).length = l.length := by
    intro l hl
    induction l with
    | nil => rfl
    | cons t l ih =>
      show (t.text d ++ numText d l).length = _
      rw [List.length_append, hl t (by simp), ih fun t ht => hl t (by simp [ht]), List.length_cons, Nat.add_comm]
  constructor
  · rintro ⟨ts, hts, x, c, y, e, rfl⟩
    have : ts = toks := numReading_unique wf ts toks [] (by rw [hts.text, ht]) (by simpa using hts.right) hr
    subst this
    refine ⟨c, ?_⟩
    rw [len x fun t ht => one t (by rw [e]; simp [ht]), e, List.getElem?_append_right (Nat.le_refl _), Nat.sub_self]
    rfl
  · rintro ⟨z, hz⟩
    obtain ⟨hlt, hz⟩ := List.getElem?_eq_some_iff.1 hz
    have e : toks = toks.take pos ++ .digit z :: toks.drop (pos + 1) := by
      rw [← hz]
      exact ((List.take_append_drop pos toks).symm.trans (by rw [List.drop_eq_getElem_cons hlt]))
    refine ⟨toks, ⟨ht, by simpa using hr⟩, _, z, _, e, ?_⟩
    rw [len _ fun t ht => one t (List.mem_of_mem_take ht), List.length_take]
    omega

theorem piecesOf_length {upper digit : Char → Bool} {code : Char → Text} (x : Char × Text) :
    (piecesOf sign upper digit code x).length = (signedOut sign upper code x).length := by
  unfold piecesOf signedOut
  cases upper x.1 <;> simp

theorem pieces_length {upper digit : Char → Bool} {code : Char → Text} (l : List (Char × Text)) :
    (l.flatMap (piecesOf sign upper digit code)).length = (l.flatMap (signedOut sign upper code)).length := by
  induction l with
  | nil => rfl
  | cons x l ih => rw [List.flatMap_cons, List.flatMap_cons, List.length_append, List.length_append, ih, piecesOf_length]

theorem mem_withLeads {num : Option Char} {digit : Char → Bool} : ∀ {text : Text} {after : Bool} {x : Char × Text},
    x ∈ withLeads num digit after text → x.1 ∈ text ∧ ∀ s ∈ x.2, num = some s := by
  intro text
  induction text with
  | nil => intro after x hx; cases hx
  | cons c rest ih =>
    intro after x hx
    rcases List.mem_cons.1 hx with rfl | hx
    · refine ⟨by simp, ?_⟩
      intro s hs
      have hs : s ∈ (if digit c && !after then num.toList else []) := hs
      split at hs
      · exact Option.mem_toList.1 hs
      · cases hs
    · exact ⟨by simp [(ih hx).1], (ih hx).2⟩

/-! ## Reading back -/

/-- **C88**, main stage, backward. -/
theorem C88_main_backward (hm : MainStage sys (TableCtx.compile sys.alpha rules) .backward rules p) (h : ReadableNumbers sign num rules)
    (cs : Case) (text : Text) (code : Char → Text) (hcode : ∀ c ∈ text, Spelt rules c (code c)) (upper : Char → Bool)
    (hupper : ∀ c ∈ text, upper c = true ↔ ∃ r ∈ rules, r.rule.Raises c) (digit : Char → Bool)
    (hdigit : ∀ c ∈ text, digit c = true ↔ ∃ r ∈ rules, r.rule.IsDigit c)
    (hsmall : ∀ c ∈ text, upper c = true → ∀ low, SmallFor rules c low → (¬ ∃ r ∈ rules, r.rule.DigitLine low) → cs.upperChar low = [c])
    (hcells : ∀ cell : Cell, cs.lower cell.toUnicode = [cell.toUnicode])
    (hletters : ∀ r ∈ rules, ∀ cell : Cell, ¬ r.rule.Raises cell.toUnicode)
    (hdigits : ∀ r ∈ rules, ∀ cell : Cell, ¬ r.rule.IsDigit cell.toUnicode) (hapart : NumbersApart rules text)
    (ts : List Resolved) (ht : p.Traces cs (spelledOut sign (some num) upper digit code false text) [] ts) : outputOf ts = text := by
  rw [← withLeads_spelled] at ht
  have hl := h.toLetterByLetter
  -- digits
  have hcodeDigit : ∀ c ∈ text, digit c = true → ∃ r ∈ rules, r.rule.DigitLine c ∧ ∃ x, code c = [x] ∧ r.rule.Defines c [x] := by
    intro c hc hd
    obtain ⟨r, hr, cells, cons, e⟩ := (hdigit c hc).1 hd
    have hdef : r.rule.Defines c cells.toText := by rw [e]; exact .inl ⟨_, _, _, rfl, rfl⟩
    have hline : r.rule.DigitLine c := ⟨_, _, _, e, .inr rfl⟩
    have := h.one _ _ _ (hcode c hc) (.direct hr hdef)
    obtain ⟨x, hx⟩ := List.length_eq_one_iff.1 (h.single r hr _ _ hline hdef)
    rw [hx] at this hdef
    exact ⟨r, hr, hline, x, this, hdef⟩
  have hnotLine : ∀ c ∈ text, digit c = false → ∀ q ∈ rules, ¬ q.rule.DigitLine c := by
    intro c hc hd q hq hl
    have := (hdigit c hc).2 (h.written q hq c hl)
    rw [hd] at this; cases this
  have hplain : ∀ c ∈ text, digit c = true → upper c = false := by
    intro c hc hd
    obtain ⟨q, hq, hql, -⟩ := hcodeDigit c hc hd
    cases hu : upper c with
    | false => rfl
    | true =>
      exfalso
      obtain ⟨r, hr, hraise⟩ := (hupper c hc).1 hu
      generalize hrr : r.rule = rule at hraise
      cases hraise with
      | upper => exact h.apart q hq r hr c hql ⟨_, _, _, hrr, .inr (.inr rfl)⟩
      | base => exact (h.small r hr q hq _ _ _ hrr).1 hql
  -- every character can be read
  have hread : ∀ c, ∃ x : Char × Resolved, c ∈ text →
      (digit c = true → ∃ y, code c = [y] ∧ readsDigit sys rules p y c x.2 ∧ x.1 = c) ∧
      (digit c = false → ReadAs (mainTable ((TableCtx.compile sys.alpha rules).prim .backward) .backward
        (tableOps (TableCtx.compile sys.alpha rules) .backward rules)) (code c) [x.1] x.2 ∧
        (if upper c then cs.upperChar x.1 = [c] else x.1 = c)) := by
    intro c
    by_cases hc : c ∈ text
    · cases hd : digit c with
      | true =>
        obtain ⟨r, hr, hline, y, hy, hdef⟩ := hcodeDigit c hc hd
        obtain ⟨k, hk⟩ := digit_reads hm h hr hline hdef
        exact ⟨(c, k), fun _ => ⟨fun _ => ⟨y, hy, hk, rfl⟩, fun h => (nomatch h)⟩⟩
      | false =>
        have hno := hnotLine c hc hd
        have hsp := hcode c hc
        have hup := hupper c hc
        have hsm := hsmall c hc
        generalize code c = w at hsp
        have : ∃ low, ∃ r ∈ rules, r.rule.Defines low w ∧ (∀ q ∈ rules, ¬ q.rule.DigitLine low) ∧
            (if upper c then cs.upperChar low = [c] else low = c) := by
          cases hsp with
          | @direct r _ _ hr hdf =>
            refine ⟨c, r, hr, hdf, hno, ?_⟩
            split
            · next hu => exact hsm hu c ⟨w, .direct hr hdf, r, hr, hdf⟩ fun ⟨q, hq, hql⟩ => hno q hq hql
            · rfl
          | @derived r q name _ b _ hr e hq hqd =>
            have hup : upper c = true := by
              rcases hl.lines r hr with ⟨hq, -⟩ | ⟨_, _, _, _, e', -⟩ | ⟨c', b', e'⟩ | ⟨_, _, e', -⟩ | ⟨_, _, -, e', -⟩
              · rw [e] at hq; cases hq
              · rw [e] at e'; cases e'
              · rw [e] at e'; cases e'
                exact hup.2 ⟨r, hr, by rw [e]; exact .base⟩
              · rw [e] at e'; cases e'
              · rw [e] at e'; cases e'
            have hb : ∀ q ∈ rules, ¬ q.rule.DigitLine b := fun q hq => (h.small r hr q hq _ _ _ e).2
            refine ⟨b, q, hq, hqd, hb, ?_⟩
            rw [if_pos hup]
            exact hsm hup b ⟨w, .derived hr e hq hqd, q, hq, hqd⟩ fun ⟨q, hq, hql⟩ => hb q hq hql
        obtain ⟨low, r, hr, hdf, hlow, hcase⟩ := this
        obtain ⟨k, hk⟩ := letter_first_reads (sys := sys) h hr hdf hlow
        exact ⟨(low, k), fun _ => ⟨fun h => (nomatch h), fun _ => ⟨hk, hcase⟩⟩⟩
    · exact ⟨(c, Resolved.new [] [] 0 .main none), fun h => absurd h hc⟩
  obtain ⟨g, hg⟩ := choice' hread
  obtain ⟨n1, n2⟩ := number_signs (sys := sys) h
  have hmem := fun {x} => mem_withLeads (num := some num) (digit := digit) (text := text) (after := false) (x := x)
  -- where the digits are
  have hfine : AllFine (backNumbers sys (TableCtx.compile sys.alpha rules) rules) num []
      ((withLeads (some num) digit false text).flatMap (piecesOf sign upper digit code)) := by
    refine withLeads_fine ?_ ?_ text [] false ⟨fun h => (nomatch h), fun h => absurd h not_numOpen_nil⟩ ?_ ?_ ?_
    · intro e
      exact h.distinct (by rw [e])
    · rw [digitCells_line h]
      rintro ⟨r, hr, c, -, hd⟩
      exact h.unsigned sign (.inl rfl) r hr _ _ hd (by simp)
    · intro c hc
      obtain ⟨r, hr, b, hd⟩ := (hcode c hc).line
      refine ⟨h.nonempty r hr _ _ hd, h.unsigned num (.inr rfl) r hr _ _ hd, fun hdc => ⟨hplain c hc hdc, ?_⟩⟩
      obtain ⟨r, hr, hline, y, hy, hdef⟩ := hcodeDigit c hc hdc
      exact ⟨y, hy, (digitCells_line h).2 ⟨r, hr, c, hline, hdef⟩⟩
    · intro c post e
      exact ⟨fun _ _ y hy => by simp [numText] at hy, fun h => nomatch h⟩
    · intro pre c c' post e
      have hc : c ∈ text := by rw [e]; simp
      have hc' : c' ∈ text := by rw [e]; simp
      obtain ⟨a1, a2⟩ := hapart pre c c' post e
      constructor
      · intro hd' hd y hy hlet
        obtain ⟨u, hu⟩ := List.getLast?_eq_some_iff.1 hy
        refine a1 ((hdigit c' hc').1 hd') (fun hx => ?_) u y (by rw [← hu]; exact hcode c hc) (letterCells_line h hlet)
        rw [(hdigit c hc).2 hx] at hd; cases hd
      · intro hd hd' hu' y hy hdig
        obtain ⟨u, hu⟩ := List.head?_eq_some_iff.1 hy
        refine a2 ((hdigit c hc).1 hd) (fun hx => ?_) (fun hx => ?_) y u (by rw [← hu]; exact hcode c' hc') ((digitCells_line h).1 hdig)
        · rw [(hdigit c' hc').2 hx] at hd'; cases hd'
        · rw [(hupper c' hc').2 hx] at hu'; cases hu'
  have htext : numText (backNumbers sys (TableCtx.compile sys.alpha rules) rules)
      ((withLeads (some num) digit false text).flatMap (piecesOf sign upper digit code)) =
      (withLeads (some num) digit false text).flatMap (signedOut sign upper code) := by
    have : ∀ l : List (Char × Text), (∀ x ∈ l, ∀ s ∈ x.2, s = num) →
        numText (backNumbers sys (TableCtx.compile sys.alpha rules) rules) (l.flatMap (piecesOf sign upper digit code)) =
          l.flatMap (signedOut sign upper code) := by
      intro l hl
      induction l with
      | nil => rfl
      | cons x l ih =>
        rw [List.flatMap_cons, numText_append, piecesOf_text n1 (hl x (by simp)), ih fun x hx => hl x (by simp [hx]), List.flatMap_cons]
    exact this _ fun x hx s hs => by
      have := (hmem hx).2 s hs
      injection this with this
      exact this.symm
  have hplace := fun pos => digitCell_iff n1 n2 hfine htext pos
  have e : outputOf ts = (withLeads (some num) digit false text).map (·.1) := by
    refine read_chunks hm h.toSignsApart cs _ (fun x hx => (hmem hx).2) code (fun x hx => hcode _ (hmem hx).1) upper hcells hletters
      hdigits ?_ g ?_ ?_ ts ht
    · intro flags hf s hs place
      right
      have hfind := digits_find hm s
      cases hdr : digitReading rules s with
      | none => rw [hdr] at hfind; exact Option.map_eq_none_iff.1 hfind
      | some y =>
        exfalso
        obtain ⟨q, hq, -, hqd⟩ := digitReading_line (ch := y.1) (o := y.2) hdr
        exact h.unsigned s hs q hq _ _ hqd (by simp)
    · intro x hx
      have hc := (hmem hx).1
      obtain ⟨h1, h2⟩ := hg x.1 hc
      cases hd : digit x.1 with
      | true =>
        obtain ⟨y, hy, ⟨k1, k2, k3, -⟩, k4⟩ := h1 hd
        refine ⟨by rw [k1, hy], by rw [k2, k4], by rw [k3, hy]; rfl, ?_⟩
        rw [hplain _ hc hd, if_neg (by simp), k4]
      | false =>
        obtain ⟨⟨k1, k2, k3, -⟩, k4⟩ := h2 hd
        exact ⟨k1, k2, k3, k4⟩
    · intro flags hf pre x post exs place hpl hcomp hdont rest prev hlow
      have hx : x ∈ withLeads (some num) digit false text := by rw [exs]; simp
      have hc := (hmem hx).1
      obtain ⟨h1, h2⟩ := hg x.1 hc
      have hne : code x.1 ≠ [] := by
        obtain ⟨r, hr, b, hd⟩ := (hcode x.1 hc).line
        exact h.nonempty r hr _ _ hd
      -- the piece here
      have hpiece : ∃ y w, code x.1 = y :: w ∧ ((withLeads (some num) digit false text).flatMap (piecesOf sign upper digit code))[place]? =
          some ((if digit x.1 then NumTok.digit else .cell) y) := by
        cases hw : code x.1 with
        | nil => exact absurd hw hne
        | cons y w =>
          refine ⟨y, w, rfl, ?_⟩
          have hsplit : (withLeads (some num) digit false text).flatMap (piecesOf sign upper digit code) =
              (pre.flatMap (piecesOf sign upper digit code) ++ (x.2.map (fun _ => NumTok.sign) ++ if upper x.1 then [NumTok.cell sign] else [])) ++
                (if digit x.1 then NumTok.digit else NumTok.cell) y :: (w.map (if digit x.1 then NumTok.digit else NumTok.cell) ++
                  post.flatMap (piecesOf sign upper digit code)) := by
            rw [exs, List.flatMap_append, List.flatMap_cons]
            conv => lhs; rhs; lhs; unfold piecesOf
            rw [hw]
            simp only [List.map_cons, List.append_assoc, List.cons_append]
          have hlen : (pre.flatMap (piecesOf sign upper digit code) ++ (x.2.map (fun _ => NumTok.sign) ++
              if upper x.1 then [NumTok.cell sign] else [])).length = place := by
            rw [List.length_append, pieces_length, hpl]
            cases upper x.1 <;> simp <;> omega
          rw [hsplit, List.getElem?_append_right (Nat.le_of_eq hlen), hlen, Nat.sub_self]
          rfl
      obtain ⟨y, w, hyw, hpiece⟩ := hpiece
      cases hd : digit x.1 with
      | true =>
        obtain ⟨y', hy', ⟨-, -, -, k5⟩, -⟩ := h1 hd
        have hp : flags.preferDigit place = true := by
          refine (hf.digit rfl place).2 ((hplace place).2 ⟨y, ?_⟩)
          rw [hpiece, hd]; rfl
        rw [hy'] at hlow ⊢
        exact k5 cs flags place hp hcomp hdont rest prev hlow
      | false =>
        obtain ⟨⟨-, -, -, k4, k5⟩, -⟩ := h2 hd
        have hp : flags.preferDigit place = false := by
          cases hp : flags.preferDigit place with
          | false => rfl
          | true =>
            obtain ⟨z, hz⟩ := (hplace place).1 ((hf.digit rfl place).1 hp)
            rw [hpiece, hd] at hz
            cases hz
        exact step_only (hm.built.faithful.lists cs.lower) (letter_lists hl).1 (.inl hp) hcomp hdont (k4 _ _) prev (k5 _ _ _ hlow)
  rw [e, withLeads_chars]

/-- **C88.** What a table for uncontracted braille whose digits have the cells of letters writes for a text in which numbers are
set apart is read back as that text. -/
theorem C88_round_trip (sys : Sys) (rules : List Anchored) (sign num : Char) (hr : ReadableNumbers sign num rules)
    (steps steps' : List Transform) (hf : Pipeline.Compiles sys rules .forward steps)
    (hb : Pipeline.Compiles sys rules .backward steps') (cs : Case)
    (hcells : ∀ cell : Cell, cs.lower cell.toUnicode = [cell.toUnicode])
    (hletters : ∀ r ∈ rules, ∀ cell : Cell, ¬ r.rule.Raises cell.toUnicode)
    (hdigits : ∀ r ∈ rules, ∀ cell : Cell, ¬ r.rule.IsDigit cell.toUnicode) (text : Text)
    (hdef : ∀ c ∈ text, ∃ dots, Spelt rules c dots) (hapart : NumbersApart rules text)
    (hcase : ∀ c ∈ text, (∃ r ∈ rules, r.rule.Raises c) → ∀ low, SmallFor rules c low → (¬ ∃ r ∈ rules, r.rule.DigitLine low) →
      cs.upperChar low = [c])
    (braille : Text) (h : Pipeline.Translates cs [] text steps braille) (back : Text)
    (h' : Pipeline.Translates cs [] braille steps' back) : back = text := by
  obtain ⟨code, hcode⟩ := choice' (P := fun c dots => c ∈ text → Spelt rules c dots) fun c => by
    by_cases hc : c ∈ text
    · obtain ⟨dots, hd⟩ := hdef c hc
      exact ⟨dots, fun _ => hd⟩
    · exact ⟨[], fun h => absurd h hc⟩
  obtain ⟨upper, hupper⟩ := choice' (P := fun c b => b = true ↔ ∃ r ∈ rules, r.rule.Raises c) fun c => by
    by_cases hc : ∃ r ∈ rules, r.rule.Raises c
    · exact ⟨true, by simp [hc]⟩
    · exact ⟨false, by simp [hc]⟩
  obtain ⟨digit, hdigit⟩ := choice' (P := fun c b => b = true ↔ ∃ r ∈ rules, r.rule.IsDigit c) fun c => by
    by_cases hc : ∃ r ∈ rules, r.rule.IsDigit c
    · exact ⟨true, by simp [hc]⟩
    · exact ⟨false, by simp [hc]⟩
  have e := C86_written sys rules sign (some num) hr.toLetterByLetter steps hf cs text code hcode upper (fun c _ => hupper c) digit
    (fun c _ => hdigit c) braille h
  obtain ⟨p, rfl, hp⟩ := letter_steps hr.toLetterByLetter hb
  obtain ⟨mid, ⟨ts, ht, rfl⟩, rfl⟩ := h'
  have ht : p.Traces cs braille [] ts := ht
  rw [e] at ht
  exact C88_main_backward hp hr cs text code hcode upper (fun c _ => hupper c) digit (fun c _ => hdigit c)
    (fun c hc hu => hcase c hc ((hupper c).1 hu)) hcells hletters hdigits hapart ts ht

/-- **C88** for table texts. -/
theorem C88_source (sys : Sys) (cs : Case) (hcells : ∀ cell : Cell, cs.lower cell.toUnicode = [cell.toUnicode])
    (table : Text) (rules : List (Rule × Loc)) (hp : parseTable table none = .ok rules) (sign num : Char)
    (hr : ReadableNumbers sign num (anchor rules)) (hletters : ∀ r ∈ anchor rules, ∀ cell : Cell, ¬ r.rule.Raises cell.toUnicode)
    (hdigits : ∀ r ∈ anchor rules, ∀ cell : Cell, ¬ r.rule.IsDigit cell.toUnicode)
    (text : Text) (hdef : ∀ c ∈ text, ∃ dots, Spelt (anchor rules) c dots) (hapart : NumbersApart (anchor rules) text)
    (hcase : ∀ c ∈ text, (∃ r ∈ anchor rules, r.rule.Raises c) → ∀ low, SmallFor (anchor rules) c low →
      (¬ ∃ r ∈ anchor rules, r.rule.DigitLine low) → cs.upperChar low = [c])
    (braille back : Text) (h : SourceTranslates sys cs table .forward [] text braille)
    (h' : SourceTranslates sys cs table .backward [] braille back) : back = text := by
  have key : ∀ {d steps}, translatorFromSource sys table d = .ok steps → Pipeline.Compiles sys (anchor rules) d steps := by
    intro d steps h
    unfold translatorFromSource at h
    rw [hp] at h
    simp only [fromTableSource] at h
    split at h
    · cases h
    · split at h
      · cases h
      · next e => cases h; exact compile_compiles e
  obtain ⟨steps, e, ht⟩ := h
  obtain ⟨steps', e', ht'⟩ := h'
  exact C88_round_trip sys _ sign num hr steps steps' (key e) (key e') cs hcells hletters hdigits text hdef hapart hcase braille ht
    back ht'

/-! ## An example -/

def Rule.isDigitLine : Rule → Bool
  | .charDef k _ _ _ => k == .digit || k == .litdigit
  | _ => false

def Rule.isLetterLine : Rule → Bool
  | .charDef k _ _ _ => k == .letter || k == .lowercase || k == .uppercase
  | _ => false

theorem digitLine_of {r : Rule} {c : Char} {w : Text} (h : r.isDigitLine = true) (hd : r.Defines c w) : r.DigitLine c := by
  rcases hd with ⟨k, cells, cons, rfl, -⟩ | ⟨cells, rfl, -⟩
  · refine ⟨k, cells, cons, rfl, ?_⟩
    cases k <;> first | (cases h; done) | simp
  · cases h

theorem letterLine_of {r : Rule} {c : Char} {w : Text} (h : r.isLetterLine = true) (hd : r.Defines c w) : r.LetterLine c := by
  rcases hd with ⟨k, cells, cons, rfl, -⟩ | ⟨cells, rfl, -⟩
  · refine ⟨k, cells, cons, rfl, ?_⟩
    cases k <;> first | (cases h; done) | simp
  · cases h

theorem isDigitLine_of {r : Rule} {c : Char} (h : r.DigitLine c) : r.isDigitLine = true ∧ ∃ w, r.defines? = some (c, w) := by
  obtain ⟨k, cells, cons, rfl, hk⟩ := h
  refine ⟨?_, _, rfl⟩
  rcases hk with rfl | rfl <;> rfl

theorem isLetterLine_of {r : Rule} {c : Char} (h : r.LetterLine c) : r.isLetterLine = true ∧ ∃ w, r.defines? = some (c, w) := by
  obtain ⟨k, cells, cons, rfl, hk⟩ := h
  refine ⟨?_, _, rfl⟩
  rcases hk with rfl | rfl | rfl <;> rfl

/-- The definitions of a table with what kind of line they are from: of a digit, of a letter. -/
def kindsOf (rules : List Anchored) : List ((Char × Text) × Bool × Bool) :=
  rules.filterMap fun r => r.rule.defines?.map fun x => (x, r.rule.isDigitLine, r.rule.isLetterLine)

theorem mem_kindsOf {r : Anchored} (hr : r ∈ rules) {c : Char} {dots : Text} (h : r.rule.Defines c dots) :
    ((c, dots), r.rule.isDigitLine, r.rule.isLetterLine) ∈ kindsOf rules :=
  List.mem_filterMap.2 ⟨r, hr, by rw [defines?_iff h]; rfl⟩

/-- Is this a table for uncontracted braille, with digits that have the cells of letters, that can be read back? -/
def checkNumbers (sign num : Char) (rules : List Anchored) : Bool :=
  checkSpelling sign (some num) rules && sign != num &&
  (kindsOf rules).all (fun x => x.1.2 != [] && !x.1.2.contains sign && !x.1.2.contains num &&
    (!x.2.1 || (x.1.2.length == 1 && (writtenDigits rules).contains x.1.1)) &&
    (kindsOf rules).all fun y => (!x.1.2.isPrefixOf y.1.2 || x.1.1 == y.1.1 ||
      (x.1.2 == y.1.2 && (x.2.1 && y.2.2 || x.2.2 && y.2.1))) && !(x.2.1 && y.2.2 && x.1.1 == y.1.1)) &&
  (List.range rules.length).all (fun i => match (rules[i]?).map Anchored.rule with
    | some (Rule.base _ c b) => (defsOf (rules.take i)).any (·.1 == b) &&
      (kindsOf rules).all fun x => !x.2.1 || (x.1.1 != c && x.1.1 != b)
    | some r => !r.isDigitLine || (match r.defines? with
      | some x => (kindsOf (rules.drop (i + 1))).all fun y => !y.2.2 || y.1.2 != x.2
      | none => true)
    | none => true) &&
  rules.all (fun r => r.rule.fills != some "digit".toList)

theorem checkNumbers_sound (h : checkNumbers sign num rules = true) : ReadableNumbers sign num rules := by
  simp only [checkNumbers, Bool.and_eq_true] at h
  obtain ⟨⟨⟨⟨h1, h2⟩, h3⟩, h4⟩, h5⟩ := h
  simp only [List.all_eq_true, Bool.and_eq_true] at h3 h4 h5
  have hl := checkSpelling_sound h1
  have hat : ∀ pre r post, rules = pre ++ r :: post → pre.length ∈ List.range rules.length ∧
      (rules[pre.length]?).map Anchored.rule = some r.rule ∧ rules.take pre.length = pre ∧ rules.drop (pre.length + 1) = post := by
    intro pre r post e
    refine ⟨List.mem_range.2 (by rw [e]; simp), ?_, by rw [e, List.take_left' rfl], ?_⟩
    · rw [e, List.getElem?_append_right (Nat.le_refl _), Nat.sub_self]; rfl
    · rw [e, ← List.singleton_append, ← List.append_assoc, List.drop_left' (by simp)]
  have defsD : ∀ {r : Rule} {c : Char}, r.DigitLine c → ∃ w, r.Defines c w := by
    intro r c h
    obtain ⟨-, w, hw⟩ := isDigitLine_of h
    exact ⟨w, defines?_sound hw⟩
  have defsL : ∀ {r : Rule} {c : Char}, r.LetterLine c → ∃ w, r.Defines c w := by
    intro r c h
    obtain ⟨-, w, hw⟩ := isLetterLine_of h
    exact ⟨w, defines?_sound hw⟩
  refine { toSignsApart := { toLetterByLetter := hl, nonempty := ?_, unsigned := ?_, distinct := ?_ }, unambiguous := ?_, lettersFirst := ?_, single := ?_, written := ?_, apart := ?_, small := ?_, marked := ?_, above := ?_ }
  · intro r hr c dots hd
    have := (h3 _ (mem_kindsOf hr hd)).1.1.1.1
    simpa using this
  · intro s hs r hr c dots hd
    rcases hs with rfl | hs
    · have := (h3 _ (mem_kindsOf hr hd)).1.1.1.2
      simpa using this
    · cases hs
      have := (h3 _ (mem_kindsOf hr hd)).1.1.2
      simpa using this
  · intro e
    cases e
    simp at h2
  · intro r hr r' hr' c dots c' dots' hd hd' hp
    have := ((h3 _ (mem_kindsOf hr hd)).2 _ (mem_kindsOf hr' hd')).1
    rw [← List.isPrefixOf_iff_prefix] at hp
    simp only [Bool.or_eq_true, Bool.and_eq_true, hp, Bool.not_true, Bool.false_eq_true, false_or, beq_iff_eq] at this
    rcases this with e | ⟨e, ⟨k1, k2⟩ | ⟨k1, k2⟩⟩
    · exact .inl e
    · exact .inr ⟨e, .inl ⟨digitLine_of k1 hd, letterLine_of k2 hd'⟩⟩
    · exact .inr ⟨e, .inr ⟨letterLine_of k1 hd, digitLine_of k2 hd'⟩⟩
  · intro pre r post e q hq c c' dots hline hd hqline hqd
    obtain ⟨g1, g2, -, g4⟩ := hat pre r post e
    have := h4 _ g1
    rw [g2, g4] at this
    have hdig := (isDigitLine_of hline).1
    have hdef := defines?_iff hd
    split at this
    · next name c b e' =>
      injection e' with e'
      rw [e'] at hdig; cases hdig
    · next r' hno e' =>
      injection e' with e'
      subst e'
      rw [hdig, hdef, Bool.not_true, Bool.false_or] at this
      have := List.all_eq_true.1 this _ (mem_kindsOf hq hqd)
      rw [(isLetterLine_of hqline).1] at this
      simp at this
    · next e' => cases e'
  · intro r hr c dots hline hd
    have := (h3 _ (mem_kindsOf hr hd)).1.2
    rw [(isDigitLine_of hline).1] at this
    simp at this
    exact this.1
  · intro r hr c hline
    obtain ⟨w, hd⟩ := defsD hline
    have := (h3 _ (mem_kindsOf hr hd)).1.2
    rw [(isDigitLine_of hline).1] at this
    simp only [Bool.not_true, Bool.false_or, Bool.and_eq_true] at this
    rw [List.contains_eq_mem, decide_eq_true_iff] at this
    exact mem_writtenDigits.1 this.2
  · intro r hr r' hr' c hline hline'
    obtain ⟨w, hd⟩ := defsD hline
    obtain ⟨w', hd'⟩ := defsL hline'
    have := ((h3 _ (mem_kindsOf hr hd)).2 _ (mem_kindsOf hr' hd')).2
    rw [(isDigitLine_of hline).1, (isLetterLine_of hline').1] at this
    simp at this
  · intro r hr q hq name c b e
    obtain ⟨pre, post, er⟩ := List.append_of_mem hr
    obtain ⟨g1, g2, -, -⟩ := hat pre r post er
    have := h4 _ g1
    rw [g2, e] at this
    have this := List.all_eq_true.1 (Bool.and_eq_true_iff.1 this).2
    constructor
    · intro hline
      obtain ⟨w, hd⟩ := defsD hline
      have := this _ (mem_kindsOf hq hd)
      rw [(isDigitLine_of hline).1] at this
      simp at this
    · intro hline
      obtain ⟨w, hd⟩ := defsD hline
      have := this _ (mem_kindsOf hq hd)
      rw [(isDigitLine_of hline).1] at this
      simp at this
  · intro r hr e
    have := h5 r hr
    rw [e] at this
    simp at this
  · intro pre r post e name c b hr
    obtain ⟨g1, g2, g3, -⟩ := hat pre r post e
    have := h4 _ g1
    rw [g2, hr, g3] at this
    obtain ⟨x, hx, hb⟩ := List.any_eq_true.1 (Bool.and_eq_true_iff.1 this).1
    obtain ⟨q, hq, hd⟩ := List.mem_filterMap.1 hx
    refine ⟨q, hq, x.2, ?_⟩
    rw [← eq_of_beq hb]
    exact defines?_sound hd

/-- The digits of the example have the cells of letters, but for one. -/
theorem numberTable_readable : ReadableNumbers '⠠' '⠼' numberRules := checkNumbers_sound (by decide +kernel)

/-- In the characters of the example, these may stand next to each other. -/
def mayFollow (c c' : Char) : Bool :=
  (!"123".toList.contains c' || !"abkAB".toList.contains c) && (!"123".toList.contains c || !"ab".toList.contains c')

theorem numberRules_apart {text : Text} (hc : ∀ c ∈ text, c ∈ " -abk123AB".toList)
    (h : ∀ pre c c' post, text = pre ++ c :: c' :: post → mayFollow c c' = true) : NumbersApart numberRules text := by
  have hdig : ∀ c, (∃ r ∈ numberRules, r.rule.IsDigit c) ↔ c ∈ "123".toList := by
    intro c
    have key : writtenDigits numberRules = "123".toList := by decide +kernel
    rw [← mem_writtenDigits, key]
  have letters : ∀ x, LetterCell numberRules x → x ∈ "⠁⠃⠅".toList := by
    rintro x ⟨r, hr, c, hline, hd⟩
    have key : (kindsOf numberRules).all (fun y => !y.2.2 || y.1.2.all "⠁⠃⠅".toList.contains) = true := by decide +kernel
    have := List.all_eq_true.1 key _ (mem_kindsOf hr hd)
    rw [(isLetterLine_of hline).1] at this
    simpa using this
  have digits : ∀ x, CellOfDigit numberRules x → x ∈ "⠁⠃⠉".toList := by
    rintro x ⟨r, hr, c, hline, hd⟩
    have key : (kindsOf numberRules).all (fun y => !y.2.1 || y.1.2.all "⠁⠃⠉".toList.contains) = true := by decide +kernel
    have := List.all_eq_true.1 key _ (mem_kindsOf hr hd)
    rw [(isDigitLine_of hline).1] at this
    simpa using this
  intro pre c c' post e
  have hf := h pre c c' post e
  have hcm := hc c (by rw [e]; simp)
  have hcm' := hc c' (by rw [e]; simp)
  constructor
  · intro h1 h2 dots x hs hx
    have key : (speltOf numberRules).all (fun y => "123".toList.contains y.1 || "abkAB".toList.contains y.1 ||
      y.2.getLast?.all fun x => !"⠁⠃⠅".toList.contains x) = true := by decide +kernel
    have := List.all_eq_true.1 key _ (mem_speltOf hs)
    rw [hdig] at h1 h2
    have hx := letters x hx
    unfold mayFollow at hf
    rw [Bool.and_eq_true] at hf
    have e1 : "123".toList.contains c' = true := by rw [List.contains_eq_mem]; exact decide_eq_true h1
    have e2 : "123".toList.contains c = false := by rw [List.contains_eq_mem]; exact decide_eq_false h2
    have e3 : "⠁⠃⠅".toList.contains x = true := by rw [List.contains_eq_mem]; exact decide_eq_true hx
    have hf := hf.1
    rw [e1] at hf
    have e4 : "abkAB".toList.contains c = false := by
      cases e : "abkAB".toList.contains c with
      | false => rfl
      | true => rw [e] at hf; cases hf
    simp only [List.getLast?_append, List.getLast?_singleton, Option.some_or, Option.all_some, e2, e3, e4] at this
    cases this
  · intro h1 h2 h3 x dots hs hx
    have key : (speltOf numberRules).all (fun y => "123".toList.contains y.1 || "ab".toList.contains y.1 || (raisedOf numberRules).contains y.1 ||
      y.2.head?.all fun x => !"⠁⠃⠉".toList.contains x) = true := by decide +kernel
    have := List.all_eq_true.1 key _ (mem_speltOf hs)
    rw [hdig] at h1 h2
    have hx := digits x hx
    unfold mayFollow at hf
    rw [Bool.and_eq_true] at hf
    have e1 : "123".toList.contains c = true := by rw [List.contains_eq_mem]; exact decide_eq_true h1
    have e2 : "123".toList.contains c' = false := by rw [List.contains_eq_mem]; exact decide_eq_false h2
    have e3 : "⠁⠃⠉".toList.contains x = true := by rw [List.contains_eq_mem]; exact decide_eq_true hx
    have hf := hf.2
    rw [e1] at hf
    have e4 : "ab".toList.contains c' = false := by
      cases e : "ab".toList.contains c' with
      | false => rfl
      | true => rw [e] at hf; cases hf
    have e5 : (raisedOf numberRules).contains c' = false := by
      rw [List.contains_eq_mem, decide_eq_false_iff_not]
      intro hm
      obtain ⟨r, hr, hm⟩ := List.mem_filterMap.1 hm
      have hl := numberTable_spells.lines r hr
      split at hm
      · next e =>
        cases hm
        exact h3 ⟨r, hr, by rw [e]; exact .upper⟩
      · next name c b e =>
        cases hm
        rcases hl with ⟨hq, -⟩ | ⟨_, _, _, _, e', -⟩ | ⟨_, _, e'⟩ | ⟨_, _, e', -⟩ | ⟨_, _, -, e', -⟩
        · rw [e] at hq; cases hq
        · rw [e] at e'; cases e'
        · rw [e] at e'; cases e'
          exact h3 ⟨r, hr, by rw [e]; exact .base⟩
        · rw [e] at e'; cases e'
        · rw [e] at e'; cases e'
      · cases hm
    simp only [List.head?_cons, Option.all_some, e2, e3, e4, e5] at this
    cases this

/-- The theorem applies to the table of the example, and to every text in its characters in which no digit follows a letter, and
no `a` or `b` a digit. -/
example (text braille back : Text) (ht : ∀ c ∈ text, c ∈ " -abk123AB".toList)
    (hf : ∀ pre c c' post, text = pre ++ c :: c' :: post → mayFollow c c' = true)
    (h : SourceTranslates demoSys asciiCase numberTable.toList .forward [] text braille)
    (h' : SourceTranslates demoSys asciiCase numberTable.toList .backward [] braille back) : back = text := by
  cases e : parseTable numberTable.toList none with
  | error x => have := numberTable_rules; rw [e] at this; cases this
  | ok rules =>
    have hr : anchor rules = numberRules := by unfold numberRules; rw [e]; rfl
    have cells : ∀ l : Text, l.all (fun c => decide (c.toNat < 0x2800)) = true → ∀ cell : Cell, cell.toUnicode ∉ l := by
      intro l key cell hc
      have := List.all_eq_true.1 key _ hc
      rw [toNat_toUnicode] at this
      have this := of_decide_eq_true this
      have hrange := C31_range cell
      cases e : cell.any Dot.isVirtual with
      | false => have := (hrange.1 e).1; omega
      | true => have := (hrange.2 e).1; omega
    refine C88_source demoSys asciiCase asciiCase_cells _ rules e '⠠' '⠼' (hr ▸ numberTable_readable) ?_ ?_ text ?_ (hr ▸ numberRules_apart ht hf)
      ?_ braille back h h'
    · rw [hr]
      intro r hm cell hc
      exact cells (raisedOf numberRules) (by decide +kernel) cell (mem_raisedOf hm hc)
    · rw [hr]
      intro r hm cell hc
      exact cells (writtenDigits numberRules) (by decide +kernel) cell (mem_writtenDigits.2 ⟨r, hm, hc⟩)
    · rw [hr]
      exact fun c hc => ⟨_, numberRules_spelt c (ht c hc)⟩
    · rw [hr]
      rintro c - ⟨r, hm, hc⟩ low ⟨dots, hs, q, hq, hd⟩ hnot
      have key : (raisedOf numberRules).all (fun c => (speltOf numberRules).all fun x => x.1 != c ||
        (kindsOf numberRules).all fun y => y.1.2 != x.2 || y.2.1 || asciiCase.upperChar y.1.1 == [c]) = true := by decide +kernel
      have := List.all_eq_true.1 (List.all_eq_true.1 key _ (mem_raisedOf hm hc)) _ (mem_speltOf hs)
      simp only [bne_self_eq_false, Bool.false_or, List.all_eq_true] at this
      have := this _ (mem_kindsOf hq hd)
      have e2 : q.rule.isDigitLine = false := by
        cases e : q.rule.isDigitLine with
        | false => rfl
        | true => exact absurd ⟨q, hq, digitLine_of e hd⟩ hnot
      rw [e2] at this
      simpa using this

/-- Non-vacuity of C88: a text like that, what the table writes for it, and what is read back. -/
example : (let text := "Ab 12-3A k-2k".toList
    (text.zip (text.drop 1)).all fun x => mayFollow x.1 x.2) = true ∧
    SourceTranslates demoSys asciiCase numberTable.toList .forward [] "Ab 12-3A k-2k".toList "⠠⠁⠃⠀⠼⠁⠃⠤⠼⠉⠠⠁⠀⠅⠤⠼⠃⠅".toList ∧
    SourceTranslates demoSys asciiCase numberTable.toList .backward [] "⠠⠁⠃⠀⠼⠁⠃⠤⠼⠉⠠⠁⠀⠅⠤⠼⠃⠅".toList "Ab 12-3A k-2k".toList :=
  ⟨by decide +kernel, runSource_sound (fuel := 60) (by decide +kernel), runSource_sound (fuel := 60) (by decide +kernel)⟩

end Louis
