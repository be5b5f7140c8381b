import Verif.Spec.Config
import Verif.Props.PipelineTotal
import Verif.Props.OperandPieces
import Verif.Props.LetterSigns
import Verif.Props.Demo

/-!
# C61: every sign and setting of a table is the one its lines give
-/

namespace Louis

/-! ## Loops over the rules -/

theorem latest_cons {α : Type} (f : Anchored → Option α) (r : Anchored) (rs : List Anchored) :
    latest f (r :: rs) = (latest f rs).or (f r) := by
  unfold latest
  cases h : f r with
  | none => rw [List.filterMap_cons_none h]; simp
  | some a =>
    rw [List.filterMap_cons_some h]
    cases h' : rs.filterMap f with
    | nil => simp
    | cons b bs => rw [List.getLast?_cons_cons]; simp [List.getLast?_cons]

/-- A field that the last rule of its opcode sets. -/
theorem signsLoop_last {sys : Sys} {classes : CharClasses} {d : Direction} {D : List Text} {β : Type} (field : Signs → β)
    (f : Anchored → Option β) (hstep : ∀ s r, field (s.step classes d D r) = (f r).getD (field s))
    (hhyph : ∀ s h, field { s with hyphenator := h } = field s) :
    ∀ {rules : List Anchored} {s s' : Signs}, signsLoop sys classes d D rules s = .ok s' →
      field s' = (latest f rules).getD (field s)
  | [], s, s', h => by cases h; rfl
  | r :: rs, s, s', h => by
    unfold signsLoop at h
    split at h
    · cases h
    · rename_i s₁ h₁
      rw [signsLoop_last field f hstep hhyph h, latest_cons, (hyphenate_ok h₁).1, hhyph, hstep]
      cases latest f rs <;> simp

/-- A field that collects the operands of all rules of its opcode. -/
theorem signsLoop_collect {sys : Sys} {classes : CharClasses} {d : Direction} {D : List Text} {β : Type} (field : Signs → List β)
    (f : Anchored → List β) (hstep : ∀ s r, field (s.step classes d D r) = field s ++ f r)
    (hhyph : ∀ s h, field { s with hyphenator := h } = field s) :
    ∀ {rules : List Anchored} {s s' : Signs}, signsLoop sys classes d D rules s = .ok s' →
      field s' = field s ++ rules.flatMap f
  | [], s, s', h => by cases h; simp
  | r :: rs, s, s', h => by
    unfold signsLoop at h
    split at h
    · cases h
    · rename_i s₁ h₁
      rw [signsLoop_collect field f hstep hhyph h, (hyphenate_ok h₁).1, hhyph, hstep]
      simp

theorem first_midnum (rules : List Anchored) (s : Signs) :
    rules.foldl Signs.first s = s.midnum (allChars (fun | .decpoint c _ => some [c] | _ => none) rules) := by
  induction rules generalizing s with
  | nil => simp [allChars, Signs.midnum]
  | cons r rs ih =>
    rw [List.foldl_cons, ih]
    obtain ⟨rule, id⟩ := r
    unfold Signs.first
    cases rule <;> simp [allChars, Signs.midnum]

/-- A field that may be absent, set by the last rule of its opcode. -/
theorem signsLoop_opt {sys : Sys} {classes : CharClasses} {d : Direction} {D : List Text} {β : Type} (field : Signs → Option β)
    (f : Anchored → Option β) (hstep : ∀ s r, field (s.step classes d D r) = (f r).or (field s))
    (hhyph : ∀ s h, field { s with hyphenator := h } = field s) :
    ∀ {rules : List Anchored} {s s' : Signs}, signsLoop sys classes d D rules s = .ok s' →
      field s' = (latest f rules).or (field s)
  | [], s, s', h => by cases h; rfl
  | r :: rs, s, s', h => by
    unfold signsLoop at h
    split at h
    · cases h
    · rename_i s₁ h₁
      rw [signsLoop_opt field f hstep hhyph h, latest_cons, (hyphenate_ok h₁).1, hhyph, hstep]
      cases latest f rs <;> simp

/-- The state of the builders after both loops. -/
abbrev AfterLoops (sys : Sys) (ctx : TableCtx) (d : Direction) (rules : List Anchored) (s : Signs) : Prop :=
  signsLoop sys ctx.classes d (letterDotsOf d rules) rules (rules.foldl Signs.first Signs.new) = .ok s

section

variable {sys : Sys} {ctx : TableCtx} {d : Direction} {rules : List Anchored} {s : Signs}


/-- A sign. -/
theorem AfterLoops.sign (h : AfterLoops sys ctx d rules s) (field : Signs → Option Resolved) (f : Rule → Option Cells)
    (hstep : ∀ s (r : Anchored), field (s.step ctx.classes d (letterDotsOf d rules) r) =
      ((f r.rule).map fun dots => indication dots.toText r.origin).or (field s))
    (hhyph : ∀ s h, field { s with hyphenator := h } = field s) (hinit : ∀ x, field (Signs.new.midnum x) = none) :
    field s = lastSign f rules := by
  rw [signsLoop_opt field (fun r => (f r.rule).map fun dots => indication dots.toText r.origin) hstep hhyph h, first_midnum, hinit]
  exact Option.or_none

/-- An operand. -/
theorem AfterLoops.arg {β : Type} (h : AfterLoops sys ctx d rules s) (field : Signs → β) (f : Rule → Option β) (b : β)
    (hstep : ∀ s (r : Anchored), field (s.step ctx.classes d (letterDotsOf d rules) r) = (f r.rule).getD (field s))
    (hhyph : ∀ s h, field { s with hyphenator := h } = field s) (hinit : ∀ x, field (Signs.new.midnum x) = b) :
    field s = (lastArg f rules).getD b := by
  rw [signsLoop_last field (fun r => f r.rule) hstep hhyph h, first_midnum, hinit]
  rfl

/-- The characters of all rules. -/
theorem AfterLoops.chars (h : AfterLoops sys ctx d rules s) (field : Signs → Text) (f : Rule → Option Text)
    (hstep : ∀ s (r : Anchored), field (s.step ctx.classes d (letterDotsOf d rules) r) = field s ++ (f r.rule).getD [])
    (hhyph : ∀ s h, field { s with hyphenator := h } = field s) :
    field s = field (Signs.new.midnum (allChars (fun | .decpoint c _ => some [c] | _ => none) rules)) ++ allChars f rules := by
  rw [signsLoop_collect field (fun r => (f r.rule).getD []) hstep hhyph h, first_midnum]
  rfl

theorem AfterLoops.capsletter (h : AfterLoops sys ctx d rules s) :
    s.caps.capsletter = lastSign (fun | .capsletter dots _ => some dots | _ => none) rules :=
  h.sign (fun s => s.caps.capsletter) (fun | .capsletter dots _ => some dots | _ => none) (by rintro s ⟨rule, id⟩; cases rule <;> rfl) (fun _ _ => rfl)
    (fun _ => rfl)

theorem AfterLoops.begcapsword (h : AfterLoops sys ctx d rules s) :
    s.caps.begcapsword = lastSign (fun | .begcapsword dots _ => some dots | _ => none) rules :=
  h.sign (fun s => s.caps.begcapsword) (fun | .begcapsword dots _ => some dots | _ => none) (by rintro s ⟨rule, id⟩; cases rule <;> rfl) (fun _ _ => rfl)
    (fun _ => rfl)

theorem AfterLoops.endcapsword (h : AfterLoops sys ctx d rules s) :
    s.caps.endcapsword = lastSign (fun | .endcapsword dots _ => some dots | _ => none) rules :=
  h.sign (fun s => s.caps.endcapsword) (fun | .endcapsword dots _ => some dots | _ => none) (by rintro s ⟨rule, id⟩; cases rule <;> rfl) (fun _ _ => rfl)
    (fun _ => rfl)

theorem AfterLoops.begcaps (h : AfterLoops sys ctx d rules s) :
    s.caps.begcaps = lastSign (fun | .begcaps dots => some dots | _ => none) rules :=
  h.sign (fun s => s.caps.begcaps) (fun | .begcaps dots => some dots | _ => none) (by rintro s ⟨rule, id⟩; cases rule <;> rfl) (fun _ _ => rfl)
    (fun _ => rfl)

theorem AfterLoops.endcaps (h : AfterLoops sys ctx d rules s) :
    s.caps.endcaps = lastSign (fun | .endcaps dots => some dots | _ => none) rules :=
  h.sign (fun s => s.caps.endcaps) (fun | .endcaps dots => some dots | _ => none) (by rintro s ⟨rule, id⟩; cases rule <;> rfl) (fun _ _ => rfl)
    (fun _ => rfl)

theorem AfterLoops.begcapsphrase (h : AfterLoops sys ctx d rules s) :
    s.caps.begcapsphrase = lastSign (fun | .begcapsphrase dots => some dots | _ => none) rules :=
  h.sign (fun s => s.caps.begcapsphrase) (fun | .begcapsphrase dots => some dots | _ => none) (by rintro s ⟨rule, id⟩; cases rule <;> rfl) (fun _ _ => rfl)
    (fun _ => rfl)

theorem AfterLoops.endcapsphrase (h : AfterLoops sys ctx d rules s) :
    s.caps.endcapsphrase = lastSign (fun | .endcapsphrase dots _ => some dots | _ => none) rules :=
  h.sign (fun s => s.caps.endcapsphrase) (fun | .endcapsphrase dots _ => some dots | _ => none) (by rintro s ⟨rule, id⟩; cases rule <;> rfl) (fun _ _ => rfl)
    (fun _ => rfl)

theorem AfterLoops.numsign (h : AfterLoops sys ctx d rules s) :
    s.num.start = lastSign (fun | .numsign dots => some dots | _ => none) rules :=
  h.sign (fun s => s.num.start) (fun | .numsign dots => some dots | _ => none) (by rintro s ⟨rule, id⟩; cases rule <;> rfl) (fun _ _ => rfl)
    (fun _ => rfl)

theorem AfterLoops.nonumsign (h : AfterLoops sys ctx d rules s) :
    s.num.stop = lastSign (fun | .nonumsign dots _ => some dots | _ => none) rules :=
  h.sign (fun s => s.num.stop) (fun | .nonumsign dots _ => some dots | _ => none) (by rintro s ⟨rule, id⟩; cases rule <;> rfl) (fun _ _ => rfl)
    (fun _ => rfl)

theorem AfterLoops.begcomp (h : AfterLoops sys ctx d rules s) :
    s.begcomp = lastSign (fun | .begcomp dots _ => some dots | _ => none) rules :=
  h.sign (fun s => s.begcomp) (fun | .begcomp dots _ => some dots | _ => none) (by rintro s ⟨rule, id⟩; cases rule <;> rfl) (fun _ _ => rfl)
    (fun _ => rfl)

theorem AfterLoops.endcomp (h : AfterLoops sys ctx d rules s) :
    s.endcomp = lastSign (fun | .endcomp dots _ => some dots | _ => none) rules :=
  h.sign (fun s => s.endcomp) (fun | .endcomp dots _ => some dots | _ => none) (by rintro s ⟨rule, id⟩; cases rule <;> rfl) (fun _ _ => rfl)
    (fun _ => rfl)

theorem AfterLoops.modeChars (h : AfterLoops sys ctx d rules s) :
    s.caps.modeChars = (lastArg (fun | .capsmodechars cs => some cs | _ => none) rules).getD [] :=
  h.arg (fun s => s.caps.modeChars) (fun | .capsmodechars cs => some cs | _ => none) [] (by rintro s ⟨rule, id⟩; cases rule <;> rfl) (fun _ _ => rfl)
    (fun _ => rfl)

theorem AfterLoops.endcapsphraseBefore (h : AfterLoops sys ctx d rules s) :
    s.caps.endcapsphraseBefore = (lastArg (fun | .endcapsphrase _ before => some before | _ => none) rules).getD true :=
  h.arg (fun s => s.caps.endcapsphraseBefore) (fun | .endcapsphrase _ before => some before | _ => none) true (by rintro s ⟨rule, id⟩; cases rule <;> rfl) (fun _ _ => rfl)
    (fun _ => rfl)

theorem asUsize_countOf (n : Int) : asUsize n = countOf n := by
  unfold asUsize countOf
  cases n with
  | ofNat n => rw [if_neg (by simp)]; rfl
  | negSucc n => rw [if_pos (Int.negSucc_lt_zero n)]; show _ = 2 ^ 64 - 1 - n; omega

theorem AfterLoops.lenPhrase (h : AfterLoops sys ctx d rules s) :
    s.caps.lenPhrase = (lastArg (fun | .lencapsphrase n => some (countOf n) | _ => none) rules).getD 2 :=
  h.arg (fun s => s.caps.lenPhrase) (fun | .lencapsphrase n => some (countOf n) | _ => none) 2
    (by rintro s ⟨rule, id⟩; cases rule <;> first | rfl | exact asUsize_countOf _) (fun _ _ => rfl)
    (fun _ => rfl)

theorem AfterLoops.terminating (h : AfterLoops sys ctx d rules s) :
    s.num.terminating = (lastArg (fun | .numericnocontchars cs => some cs | _ => none) rules).getD [] :=
  h.arg (fun s => s.num.terminating) (fun | .numericnocontchars cs => some cs | _ => none) [] (by rintro s ⟨rule, id⟩; cases rule <;> rfl) (fun _ _ => rfl)
    (fun _ => rfl)

theorem AfterLoops.extra (h : AfterLoops sys ctx d rules s) :
    s.num.chars.extra = (lastArg (fun | .numericmodechars cs => some cs | _ => none) rules).getD [] :=
  h.arg (fun s => s.num.chars.extra) (fun | .numericmodechars cs => some cs | _ => none) [] (by rintro s ⟨rule, id⟩; cases rule <;> rfl) (fun _ _ => rfl)
    (fun _ => rfl)

theorem AfterLoops.consExtra (h : AfterLoops sys ctx d rules s) :
    s.numCons.extra = (lastArg (fun | .numericmodechars cs => some cs | _ => none) rules).getD [] :=
  h.arg (fun s => s.numCons.extra) (fun | .numericmodechars cs => some cs | _ => none) [] (by rintro s ⟨rule, id⟩; cases rule <;> rfl) (fun _ _ => rfl)
    (fun _ => rfl)

theorem AfterLoops.mid (h : AfterLoops sys ctx d rules s) :
    s.num.chars.mid = allChars (fun | .decpoint c _ => some [c] | _ => none) rules ++
      allChars (fun | .midnum cs _ _ => some cs | _ => none) rules :=
  (h.chars (fun s => s.num.chars.mid) (fun | .midnum cs _ _ => some cs | _ => none)
    (by rintro s ⟨rule, id⟩; cases rule <;> first | rfl | exact (List.append_nil _).symm) (fun _ _ => rfl)).trans (by
      simp [Signs.midnum, Signs.new])

theorem AfterLoops.consMid (h : AfterLoops sys ctx d rules s) :
    s.numCons.mid = allChars (fun | .decpoint c _ => some [c] | _ => none) rules ++
      allChars (fun | .midnum cs _ _ => some cs | _ => none) rules :=
  (h.chars (fun s => s.numCons.mid) (fun | .midnum cs _ _ => some cs | _ => none)
    (by rintro s ⟨rule, id⟩; cases rule <;> first | rfl | exact (List.append_nil _).symm) (fun _ _ => rfl)).trans (by
      simp [Signs.midnum, Signs.new])

theorem AfterLoops.noletsign (h : AfterLoops sys ctx d rules s) :
    s.noletsign = allChars (fun | .noletsign cs => some cs | _ => none) rules :=
  (h.chars (fun s => s.noletsign) (fun | .noletsign cs => some cs | _ => none)
    (by rintro s ⟨rule, id⟩; cases rule <;> first | rfl | exact (List.append_nil _).symm) (fun _ _ => rfl)).trans (by
      simp [Signs.midnum, Signs.new])

theorem AfterLoops.noletsignafter (h : AfterLoops sys ctx d rules s) :
    s.noletsignafter = allChars (fun | .noletsignafter cs => some cs | _ => none) rules :=
  (h.chars (fun s => s.noletsignafter) (fun | .noletsignafter cs => some cs | _ => none)
    (by rintro s ⟨rule, id⟩; cases rule <;> first | rfl | exact (List.append_nil _).symm) (fun _ _ => rfl)).trans (by
      simp [Signs.midnum, Signs.new])

theorem AfterLoops.noletsignbefore (h : AfterLoops sys ctx d rules s) :
    s.noletsignbefore = allChars (fun | .noletsignbefore cs => some cs | _ => none) rules :=
  (h.chars (fun s => s.noletsignbefore) (fun | .noletsignbefore cs => some cs | _ => none)
    (by rintro s ⟨rule, id⟩; cases rule <;> first | rfl | exact (List.append_nil _).symm) (fun _ _ => rfl)).trans (by
      simp [Signs.midnum, Signs.new])

theorem AfterLoops.contractions (h : AfterLoops sys ctx d rules s) : s.contractions = contractionsOf rules := by
  rw [signsLoop_collect (fun s => s.contractions) (fun r => match r.rule with | .contraction cs => [cs] | _ => [])
    (by rintro s ⟨rule, id⟩; cases rule <;> first | rfl | exact (List.append_nil _).symm) (fun _ _ => rfl) h, first_midnum]
  show [] ++ _ = _
  rw [List.nil_append]
  clear h
  induction rules with
  | nil => rfl
  | cons r rs ih =>
    rw [List.flatMap_cons, ih]
    obtain ⟨rule, id⟩ := r
    cases rule <;> simp [contractionsOf]

theorem AfterLoops.letsign (h : AfterLoops sys ctx d rules s) :
    s.letsign = lastDots (fun | .letsign dots => some dots | _ => none) rules := by
  rw [signsLoop_opt (fun s => s.letsign) (fun r => ((fun | .letsign dots => some dots | _ => none : Rule → Option Cells) r.rule).map
    fun dots => (dots.toText, r.origin)) (by rintro s ⟨rule, id⟩; cases rule <;> rfl) (fun _ _ => rfl) h, first_midnum]
  exact Option.or_none

theorem AfterLoops.nocontractsign (h : AfterLoops sys ctx d rules s) :
    s.nocontractsign = lastDots (fun | .nocontractsign dots _ => some dots | _ => none) rules := by
  rw [signsLoop_opt (fun s => s.nocontractsign) (fun r => ((fun | .nocontractsign dots _ => some dots | _ => none : Rule → Option Cells) r.rule).map
    fun dots => (dots.toText, r.origin)) (by rintro s ⟨rule, id⟩; cases rule <;> rfl) (fun _ _ => rfl) h, first_midnum]
  exact Option.or_none

/-- The dots of a sign for backward translation. -/
theorem AfterLoops.dots (h : AfterLoops sys ctx d rules s) (field : Signs → Option Text) (f : Rule → Option Cells)
    (hstep : ∀ s (r : Anchored), field (s.step ctx.classes d (letterDotsOf d rules) r) =
      match f r.rule with
      | some dots => if d == .backward && !(letterDotsOf d rules).contains dots.toText then some dots.toText else field s
      | none => field s)
    (hhyph : ∀ s h, field { s with hyphenator := h } = field s) (hinit : ∀ x, field (Signs.new.midnum x) = none) :
    field s = if d = .backward then backDots f (letterDotsOf d rules) rules else none := by
  rw [signsLoop_opt field (fun r => match f r.rule with
    | some dots => if d == .backward && !(letterDotsOf d rules).contains dots.toText then some dots.toText else none
    | none => none) (by
      intro s r
      rw [hstep]
      cases f r.rule with
      | none => rfl
      | some dots => simp only; split <;> rfl) hhyph h, first_midnum, hinit, Option.or_none]
  unfold backDots
  cases d with
  | forward =>
    simp only [reduceCtorEq, if_false]
    unfold latest
    rw [List.filterMap_eq_nil_iff.mpr]
    · rfl
    · intro r _
      cases f r.rule with
      | none => rfl
      | some dots => rfl
  | backward =>
    simp only [if_true]
    congr 1
    funext r
    cases f r.rule with
    | none => rfl
    | some dots =>
      simp only [BEq.rfl, Bool.true_and, Bool.not_eq_true']
      cases (letterDotsOf .backward rules).contains dots.toText <;> rfl

theorem AfterLoops.dotsCapsletter (h : AfterLoops sys ctx d rules s) : s.capsDots.capsletter =
    if d = .backward then backDots (fun | .capsletter dots _ => some dots | _ => none) (letterDotsOf d rules) rules else none :=
  h.dots (fun s => s.capsDots.capsletter) (fun | .capsletter dots _ => some dots | _ => none) (by
    rintro s ⟨rule, id⟩
    cases rule <;> first | rfl | (simp only [Signs.step]; split <;> rfl)) (fun _ _ => rfl) (fun _ => rfl)

theorem AfterLoops.dotsBegcapsword (h : AfterLoops sys ctx d rules s) : s.capsDots.begcapsword =
    if d = .backward then backDots (fun | .begcapsword dots _ => some dots | _ => none) (letterDotsOf d rules) rules else none :=
  h.dots (fun s => s.capsDots.begcapsword) (fun | .begcapsword dots _ => some dots | _ => none) (by
    rintro s ⟨rule, id⟩
    cases rule <;> first | rfl | (simp only [Signs.step]; split <;> rfl)) (fun _ _ => rfl) (fun _ => rfl)

theorem AfterLoops.dotsEndcapsword (h : AfterLoops sys ctx d rules s) : s.capsDots.endcapsword =
    if d = .backward then backDots (fun | .endcapsword dots _ => some dots | _ => none) (letterDotsOf d rules) rules else none :=
  h.dots (fun s => s.capsDots.endcapsword) (fun | .endcapsword dots _ => some dots | _ => none) (by
    rintro s ⟨rule, id⟩
    cases rule <;> first | rfl | (simp only [Signs.step]; split <;> rfl)) (fun _ _ => rfl) (fun _ => rfl)

theorem AfterLoops.dotsNumsign (h : AfterLoops sys ctx d rules s) : s.numDots.numsign =
    if d = .backward then backDots (fun | .numsign dots => some dots | _ => none) (letterDotsOf d rules) rules else none :=
  h.dots (fun s => s.numDots.numsign) (fun | .numsign dots => some dots | _ => none) (by
    rintro s ⟨rule, id⟩
    cases rule <;> first | rfl | (simp only [Signs.step]; split <;> rfl)) (fun _ _ => rfl) (fun _ => rfl)

theorem AfterLoops.dotsNonumsign (h : AfterLoops sys ctx d rules s) : s.numDots.nonumsign =
    if d = .backward then backDots (fun | .nonumsign dots _ => some dots | _ => none) (letterDotsOf d rules) rules else none :=
  h.dots (fun s => s.numDots.nonumsign) (fun | .nonumsign dots _ => some dots | _ => none) (by
    rintro s ⟨rule, id⟩
    cases rule <;> first | rfl | (simp only [Signs.step]; split <;> rfl)) (fun _ _ => rfl) (fun _ => rfl)

/-- Is there a rule for punctuation made of punctuation only? -/
theorem AfterLoops.punct (h : AfterLoops sys ctx d rules s) : s.punct = rules.any fun r => match r.rule with
    | .prepunc chars _ _ | .postpunc chars _ _ => chars.all ctx.classes.isPunctuation
    | _ => false := by
  have key : ∀ {rs : List Anchored} {s s' : Signs}, signsLoop sys ctx.classes d (letterDotsOf d rules) rs s = .ok s' →
      s'.punct = (s.punct || rs.any fun r => match r.rule with
        | .prepunc chars _ _ | .postpunc chars _ _ => chars.all ctx.classes.isPunctuation
        | _ => false) := by
    intro rs
    induction rs with
    | nil => intro s s' h; cases h; simp
    | cons r rs ih =>
      intro s s' h
      unfold signsLoop at h
      split at h
      · cases h
      · rename_i s₁ h₁
        rw [ih h, (hyphenate_ok h₁).1, List.any_cons]
        obtain ⟨rule, id⟩ := r
        cases rule <;> simp [Signs.step, Signs.midnum, Signs.emphasis, Bool.or_assoc]
  rw [key h, first_midnum]
  rfl

theorem step_hyphenator (classes : CharClasses) (d : Direction) (D : List Text) (s : Signs) (r : Anchored) :
    (s.step classes d D r).hyphenator = s.hyphenator := by
  obtain ⟨rule, id⟩ := r
  cases rule <;> rfl

/-- The hyphenation patterns are those of the last table. -/
theorem AfterLoops.hyphenator (h : AfterLoops sys ctx d rules s) : s.hyphenator = lastHyphenation sys rules := by
  have key : ∀ {rs : List Anchored} {s s' : Signs}, signsLoop sys ctx.classes d (letterDotsOf d rules) rs s = .ok s' →
      s'.hyphenator = (lastHyphenation sys rs).or s.hyphenator := by
    intro rs
    induction rs with
    | nil => intro s s' h; cases h; rfl
    | cons r rs ih =>
      intro s s' h
      unfold signsLoop at h
      split at h
      · cases h
      · rename_i s₁ h₁
        unfold lastHyphenation at ih ⊢
        rw [ih h, latest_cons, Option.or_assoc]
        congr 1
        unfold Signs.hyphenate at h₁
        split at h₁
        · rename_i path hr
          split at h₁
          · cases h₁
          · rename_i lines hl
            split at h₁
            · cases h₁
            · rename_i hy hd
              cases h₁
              simp [hr, hl, hd, Except.toOption]
        · rename_i hr
          cases h₁
          rw [step_hyphenator]
          split
          · rename_i path hp
            exact absurd hp (hr path)
          · rfl
  rw [key h, first_midnum]
  exact Option.or_none

/-! ## Emphasis -/

/-- What a rule does to its emphasis class. -/
def Anchored.emphUpd (r : Anchored) : EmphClass → EmphClass :=
  match r.rule with
  | .emphletter _ dots => fun c => { c with emphletter := some (indication dots.toText r.origin) }
  | .begemphword _ dots => fun c => { c with begemphword := some (indication dots.toText r.origin) }
  | .endemphword _ dots => fun c => { c with endemphword := some (indication dots.toText r.origin) }
  | .begemphphrase _ dots => fun c => { c with begemphphrase := some (indication dots.toText r.origin) }
  | .endemphphrase _ dots before => fun c =>
      { c with endemphphrase := some (indication dots.toText r.origin), endemphphraseBefore := before }
  | .lenemphphrase _ n => fun c => { c with lenPhrase := countOf n }
  | .begemph _ dots _ => fun c => { c with begemph := some (indication dots.toText r.origin) }
  | .endemph _ dots _ => fun c => { c with endemph := some (indication dots.toText r.origin) }
  | .emphmodechars _ chars => fun c => { c with modeChars := chars }
  | .noemphchars _ chars => fun c => { c with noemph := chars }
  | _ => fun c => c

theorem step_emph (classes : CharClasses) (d : Direction) (D : List Text) (s : Signs) (r : Anchored) :
    (s.step classes d D r).emph = match r.rule.emphName? with
      | some n => updClass n r.emphUpd s.emph
      | none => s.emph := by
  obtain ⟨rule, id⟩ := r
  cases rule
  case lenemphphrase name n =>
    show updClass name (fun c => { c with lenPhrase := asUsize n }) s.emph = updClass name (fun c => { c with lenPhrase := countOf n }) s.emph
    rw [asUsize_countOf]
  all_goals rfl

theorem updClass_new (name : Text) (f : EmphClass → EmphClass) (g : Text → EmphClass) (hg : ∀ x, (g x).name = x) :
    ∀ (l : List Text), name ∉ l → updClass name f (l.map g) = l.map g ++ [f (EmphClass.new name)]
  | [], _ => rfl
  | x :: l, h => by
    rw [List.mem_cons, not_or] at h
    rw [List.map_cons, updClass, if_neg (by rw [hg]; exact fun e => h.1 e.symm), updClass_new name f g hg l h.2]
    rfl

theorem updClass_old (name : Text) (f : EmphClass → EmphClass) (g : Text → EmphClass) (hg : ∀ x, (g x).name = x) :
    ∀ (l : List Text), l.Nodup → name ∈ l →
      updClass name f (l.map g) = l.map fun x => if x = name then f (g x) else g x
  | x :: l, hn, h => by
    rw [List.nodup_cons] at hn
    rw [List.map_cons, List.map_cons, updClass, hg]
    by_cases e : x = name
    · rw [if_pos e, if_pos e]
      congr 1
      apply List.map_congr_left
      intro y hy
      rw [if_neg]
      rintro rfl
      exact hn.1 (e ▸ hy)
    · rw [if_neg e, if_neg e]
      rcases List.mem_cons.mp h with h | h
      · exact absurd h.symm e
      · rw [updClass_old name f g hg l hn.2 h]

theorem latest_snoc {α : Type} (f : Anchored → Option α) (rs : List Anchored) (r : Anchored) :
    latest f (rs ++ [r]) = (f r).or (latest f rs) := by
  unfold latest
  rw [List.filterMap_append]
  cases h : f r with
  | none => rw [List.filterMap_cons_none h]; simp
  | some a => rw [List.filterMap_cons_some h]; simp

theorem emphNames_snoc (rs : List Anchored) (r : Anchored) : emphNames (rs ++ [r]) = match r.rule.emphName? with
    | some n => addNew (emphNames rs) n
    | none => emphNames rs := by
  unfold emphNames distinct
  rw [List.filterMap_append]
  cases h : r.rule.emphName? with
  | none => simp [h]
  | some a => simp [h]

theorem emphRules_snoc (name : Text) (rs : List Anchored) (r : Anchored) : emphRules name (rs ++ [r]) =
    if r.rule.emphName? = some name then emphRules name rs ++ [r] else emphRules name rs := by
  unfold emphRules
  rw [List.filter_append]
  split <;> rename_i h <;> simp [h]

theorem emphConfig_snoc (name : Text) (rs : List Anchored) (r : Anchored) : emphConfig [] name (rs ++ [r]) =
    if r.rule.emphName? = some name then r.emphUpd (emphConfig [] name rs) else emphConfig [] name rs := by
  split
  · rename_i h
    unfold emphConfig
    rw [emphRules_snoc, if_pos h]
    obtain ⟨rule, id⟩ := r
    cases rule <;> simp [lastSign, lastArg, latest_snoc, Anchored.emphUpd] <;> cases h
  · rename_i h
    unfold emphConfig
    rw [emphRules_snoc, if_neg h]

theorem emphConfig_none (name : Text) (rs : List Anchored) (h : name ∉ emphNames rs) :
    emphConfig [] name rs = EmphClass.new name := by
  have : emphRules name rs = [] := by
    unfold emphRules
    rw [List.filter_eq_nil_iff]
    intro r hr hc
    apply h
    unfold emphNames
    rw [mem_distinct, List.mem_filterMap]
    exact ⟨r, hr, by simpa using hc⟩
  unfold emphConfig
  rw [this]
  rfl

theorem AfterLoops.emph (h : AfterLoops sys ctx d rules s) :
    s.emph = (emphNames rules).map fun n => emphConfig [] n rules := by
  have key : ∀ {rs : List Anchored} {s s' : Signs}, signsLoop sys ctx.classes d (letterDotsOf d rules) rs s = .ok s' →
      ∀ done : List Anchored, s.emph = (emphNames done).map (fun n => emphConfig [] n done) →
      s'.emph = (emphNames (done ++ rs)).map fun n => emphConfig [] n (done ++ rs) := by
    intro rs
    induction rs with
    | nil => intro s s' h done hs; cases h; simpa using hs
    | cons r rs ih =>
      intro s s' h done hs
      unfold signsLoop at h
      split at h
      · cases h
      · rename_i s₁ h₁
        have := ih h (done ++ [r])
        rw [List.append_assoc] at this
        apply this
        rw [(hyphenate_ok h₁).1]
        simp only
        rw [step_emph, emphNames_snoc]
        cases hn : r.rule.emphName? with
        | none =>
          simp only
          rw [hs]
          apply List.map_congr_left
          intro n _
          rw [emphConfig_snoc, if_neg (by rw [hn]; simp)]
        | some m =>
          simp only
          rw [hs]
          by_cases hm : m ∈ emphNames done
          · rw [updClass_old m _ (fun n => emphConfig [] n done) (fun _ => rfl) (emphNames done) (nodup_distinct _) hm]
            unfold addNew
            rw [if_pos (by simpa using hm)]
            apply List.map_congr_left
            intro n _
            rw [emphConfig_snoc, hn]
            by_cases e : n = m
            · rw [if_pos e, if_pos (by rw [e])]
            · rw [if_neg e, if_neg (by intro c; injection c with c; exact e c.symm)]
          · rw [updClass_new m _ (fun n => emphConfig [] n done) (fun _ => rfl) _ hm]
            unfold addNew
            rw [if_neg (by simpa using hm), List.map_append]
            congr 1
            · apply List.map_congr_left
              intro n hn'
              rw [emphConfig_snoc, hn, if_neg]
              intro c
              injection c with c
              exact hm (c ▸ hn')
            · rw [List.map_cons, List.map_nil, emphConfig_snoc, hn, if_pos rfl, emphConfig_none m done hm]
  have := key h [] (by rw [first_midnum]; rfl)
  simpa using this

/-! ## The settings of the main stage -/

theorem MainStage.afterLoops {p : Primary} (h : MainStage sys ctx d rules p) : ∃ (p₀ : Primary) (s : Signs), p₀.Same p ∧ AfterLoops sys ctx d rules s ∧
    (s.finish sys ctx d rules).indicators ctx = .ok p₀.indicators ∧
    p.constrainers = (s.finish sys ctx d rules).constrainers ctx d := by
  obtain ⟨p₀, h, hs⟩ := h
  obtain ⟨s, h1, h2, h3, -⟩ := (compile_compiled h).signs
  refine ⟨p₀, s, hs, h1, h2, ?_⟩
  rw [hs.others]
  exact h3

/-- The builders after the whole compilation. -/
theorem AfterLoops.finish_caps (h : AfterLoops sys ctx d rules s) :
    (s.finish sys ctx d rules).caps = capsConfig ctx.classes rules := by
  unfold Signs.finish capsConfig
  simp only [CapIndicator.mk.injEq]
  exact ⟨trivial, h.modeChars, trivial, trivial, h.capsletter, h.begcapsword, h.endcapsword, h.begcaps, h.endcaps,
    h.begcapsphrase, h.endcapsphrase, h.endcapsphraseBefore, h.lenPhrase⟩

theorem AfterLoops.finish_num (h : AfterLoops sys ctx d rules s) :
    (s.finish sys ctx d rules).num = numConfig ctx.classes rules := by
  unfold Signs.finish numConfig numChars
  simp only [NumIndicator.mk.injEq, NumericChars.mk.injEq]
  exact ⟨⟨trivial, h.extra, h.mid⟩, h.numsign, h.nonumsign, h.terminating⟩

theorem AfterLoops.finish_numCons (h : AfterLoops sys ctx d rules s) :
    (s.finish sys ctx d rules).numCons = numChars ctx.classes rules := by
  unfold Signs.finish numChars
  simp only [NumericChars.mk.injEq]
  exact ⟨trivial, h.consExtra, h.consMid⟩

theorem AfterLoops.finish_emph (h : AfterLoops sys ctx d rules s) :
    (s.finish sys ctx d rules).emph = (emphNames rules).map fun n => emphConfig ctx.classes n rules := by
  unfold Signs.finish
  simp only
  rw [h.emph, List.map_map]
  rfl

theorem indicators_ok {s : Signs} {ind : Indicators} (h : s.indicators ctx = .ok ind) :
    s.letIndicator ctx = .ok ind.letsign ∧ s.nocIndicator ctx = .ok ind.nocontract ∧
    ind.comp = (s.begcomp.map fun b => ⟨b, s.endcomp⟩) ∧ ind.emph = s.emph.filter (·.isIndicating) ∧
    ind.num = (if s.num.start.isSome && !s.num.chars.digits.isEmpty then some s.num else none) ∧
    ind.caps = if s.caps.isIndicating then some s.caps else none := by
  unfold Signs.indicators at h
  split at h
  · cases h
  · rename_i a ha
    split at h
    · cases h
    · rename_i b hb
      cases h
      exact ⟨ha, hb, rfl, rfl, rfl, rfl⟩

/-- **C61**, the signs for capitals: there are some if the table has a line for one of the opening signs, and every sign is
the one of the last line with its opcode. -/
theorem C61_capitals {p : Primary} (h : MainStage sys ctx d rules p) (c : CapIndicator) :
    p.indicators.caps = some c ↔ c = capsConfig ctx.classes rules ∧
      (c.capsletter ≠ none ∨ c.begcapsword ≠ none ∨ c.begcaps ≠ none ∨ c.begcapsphrase ≠ none) := by
  obtain ⟨p₀, s, hs, h1, h2, -⟩ := h.afterLoops
  obtain ⟨-, -, -, -, -, h3⟩ := indicators_ok h2
  rw [hs.indicators]
  simp only
  rw [h3, h1.finish_caps, show (capsConfig ctx.classes rules).isIndicating = _ from rfl]
  unfold CapIndicator.isIndicating
  constructor
  · intro e
    split at e
    · rename_i hc
      cases e
      refine ⟨rfl, ?_⟩
      simpa [or_assoc, Option.isSome_iff_ne_none] using hc
    · cases e
  · rintro ⟨rfl, hc⟩
    rw [if_pos]
    simpa [or_assoc, Option.isSome_iff_ne_none] using hc

/-- **C61**, the number signs: there are some if the table has a number sign and digits. -/
theorem C61_numbers {p : Primary} (h : MainStage sys ctx d rules p) (n : NumIndicator) :
    p.indicators.num = some n ↔ n = numConfig ctx.classes rules ∧ n.start ≠ none ∧ ctx.classes.members .litdigit ≠ [] := by
  obtain ⟨p₀, s, hs, h1, h2, -⟩ := h.afterLoops
  obtain ⟨-, -, -, -, h3, -⟩ := indicators_ok h2
  rw [hs.indicators]
  simp only
  rw [h3, h1.finish_num]
  constructor
  · intro e
    split at e
    · rename_i hc
      cases e
      refine ⟨rfl, ?_⟩
      simpa [Option.isSome_iff_ne_none, numConfig, numChars] using hc
    · cases e
  · rintro ⟨rfl, hc⟩
    rw [if_pos]
    simpa [Option.isSome_iff_ne_none, numConfig, numChars] using hc

/-- **C61**, emphasis: the classes with an opening sign, in the order in which the table first mentions them, each with the
signs its lines give. -/
theorem C61_emphasis {p : Primary} (h : MainStage sys ctx d rules p) :
    p.indicators.emph = ((emphNames rules).map fun n => emphConfig ctx.classes n rules).filter fun c =>
      c.emphletter.isSome || c.begemphword.isSome || c.begemph.isSome || c.begemphphrase.isSome := by
  obtain ⟨p₀, s, hs, h1, h2, -⟩ := h.afterLoops
  obtain ⟨-, -, -, h3, -, -⟩ := indicators_ok h2
  rw [hs.indicators]
  simp only
  rw [h3, h1.finish_emph]
  rfl

/-- **C61**, computer braille: the opening sign is needed. -/
theorem C61_computer_braille {p : Primary} (h : MainStage sys ctx d rules p) :
    p.indicators.comp = (lastSign (fun | .begcomp dots _ => some dots | _ => none) rules).map fun b =>
      ⟨b, lastSign (fun | .endcomp dots _ => some dots | _ => none) rules⟩ := by
  obtain ⟨p₀, s, hs, h1, h2, -⟩ := h.afterLoops
  obtain ⟨-, -, h3, -, -, -⟩ := indicators_ok h2
  rw [hs.indicators]
  simp only
  rw [h3, ← h1.begcomp, ← h1.endcomp]
  rfl

/-- **C61**, the letter sign: there is one if the table has a line for it. -/
theorem C61_letter_sign {p : Primary} (h : MainStage sys ctx d rules p) :
    match p.indicators.letsign, lastDots (fun | .letsign dots => some dots | _ => none) rules with
    | none, none => True
    | some l, some (dots, origin) =>
      Dictionary ctx.classes .forward ((contractionsOf rules).map (contractionRule dots origin)) l.contractions ∧
      l.start = indication dots origin ∧ l.letters = signLetters ctx.classes ∧ l.spaces = ctx.classes.members .space ∧
      l.noletsign = allChars (fun | .noletsign cs => some cs | _ => none) rules ∧
      l.after = allChars (fun | .noletsignafter cs => some cs | _ => none) rules ∧
      l.before = allChars (fun | .noletsignbefore cs => some cs | _ => none) rules
    | _, _ => False := by
  obtain ⟨p₀, s, hs, h1, h2, -⟩ := h.afterLoops
  obtain ⟨h3, -⟩ := indicators_ok h2
  have hls := h1.letsign
  rw [← hls]
  have hsame := hs.letsign
  unfold Signs.letIndicator at h3
  rw [show (s.finish sys ctx d rules).letsign = s.letsign from rfl] at h3
  cases hl : s.letsign with
  | none =>
    rw [hl] at h3
    injection h3 with h3
    rw [← h3] at hsame
    cases hp : p.indicators.letsign with
    | none => trivial
    | some l => rw [hp] at hsame; cases hsame
  | some x =>
    obtain ⟨dots, origin⟩ := x
    rw [hl] at h3
    simp only at h3
    split at h3
    · cases h3
    · rename_i trie ht
      injection h3 with h3
      rw [← h3] at hsame
      cases hp : p.indicators.letsign with
      | none => rw [hp] at hsame; cases hsame
      | some l =>
        rw [hp] at hsame
        obtain ⟨ha, hb⟩ := hsame
        simp only at ha hb ⊢
        rw [hb]
        refine ⟨⟨trie, ?_, ha⟩, rfl, rfl, rfl, h1.noletsign, h1.noletsignafter, h1.noletsignbefore⟩
        rw [show (s.finish sys ctx d rules).contractions = s.contractions from rfl, h1.contractions] at ht
        unfold contractionTrie orPanic at ht
        split at ht
        · rename_i e; cases ht; exact e
        · cases ht

/-- **C61**, the no-contraction sign: there is one if the table has a line for it and contractions. -/
theorem C61_no_contraction_sign {p : Primary} (h : MainStage sys ctx d rules p) :
    match p.indicators.nocontract with
    | none => lastDots (fun | .nocontractsign dots _ => some dots | _ => none) rules = none ∨ contractionsOf rules = []
    | some l => ∃ dots origin, lastDots (fun | .nocontractsign dots _ => some dots | _ => none) rules = some (dots, origin) ∧
      contractionsOf rules ≠ [] ∧ l.start = indication dots origin ∧
      Dictionary ctx.classes .forward ((contractionsOf rules).map (contractionRule dots origin)) l.contractions := by
  obtain ⟨p₀, s, hs, h1, h2, -⟩ := h.afterLoops
  obtain ⟨-, h3, -⟩ := indicators_ok h2
  have hls := h1.nocontractsign
  rw [← hls]
  have hsame := hs.nocontract
  unfold Signs.nocIndicator at h3
  rw [show (s.finish sys ctx d rules).nocontractsign = s.nocontractsign from rfl,
    show (s.finish sys ctx d rules).contractions = s.contractions from rfl, h1.contractions] at h3
  cases hl : s.nocontractsign with
  | none =>
    rw [hl] at h3
    injection h3 with h3
    rw [← h3] at hsame
    cases hp : p.indicators.nocontract with
    | none => exact .inl rfl
    | some l => rw [hp] at hsame; cases hsame
  | some x =>
    obtain ⟨dots, origin⟩ := x
    rw [hl] at h3
    simp only at h3
    split at h3
    · rename_i he
      injection h3 with h3
      rw [← h3] at hsame
      cases hp : p.indicators.nocontract with
      | none => exact .inr (by simpa using he)
      | some l => rw [hp] at hsame; cases hsame
    · rename_i he
      split at h3
      · cases h3
      · rename_i trie ht
        injection h3 with h3
        rw [← h3] at hsame
        cases hp : p.indicators.nocontract with
        | none => rw [hp] at hsame; cases hsame
        | some l =>
          rw [hp] at hsame
          obtain ⟨ha, hb⟩ := hsame
          simp only at ha hb ⊢
          rw [hb]
          refine ⟨dots, origin, rfl, by simpa using he, rfl, trie, ?_, ha⟩
          unfold contractionTrie orPanic at ht
          split at ht
          · rename_i e; cases ht; exact e
          · cases ht

/-- The cells of letters and of digits, for backward translation. -/
def letterCells (sys : Sys) (ctx : TableCtx) (rules : List Anchored) : List Char :=
  ctx.dots.members .letter ++ rules.flatMap fun r => match r.rule with
    | .text .always chars dots _ _ => if chars.all sys.alpha then dots.toText else []
    | _ => []

/-- **C61**, what decides at which positions which rules may be used, in forward direction. -/
theorem C61_constraints_forward {p : Primary} (h : MainStage sys ctx .forward rules p) :
    p.constrainers = {
      numeric := if ctx.classes.members .litdigit = [] then none else some (numChars ctx.classes rules)
      caps := none
      backNumeric := none
      hyphenation := (lastHyphenation sys rules).map fun h => (h, ctx.classes.members .letter)
      punctuation := if rules.any (fun r => match r.rule with
          | .prepunc chars _ _ | .postpunc chars _ _ => chars.all ctx.classes.isPunctuation
          | _ => false)
        then some ⟨ctx.classes.members .letter, ctx.classes.members .letter ++ ctx.classes.members .digit,
          ctx.classes.members .space⟩ else none } := by
  obtain ⟨p₀, s, hs, h1, h2, h3⟩ := h.afterLoops
  rw [h3]
  unfold Signs.constrainers
  rw [h1.finish_numCons, show (s.finish sys ctx .forward rules).capsDots = { s.capsDots with letters := [] } from rfl,
    show (s.finish sys ctx .forward rules).numDots = { s.numDots with digits := [], letters := [] } from rfl,
    show (s.finish sys ctx .forward rules).hyphenator = s.hyphenator from rfl,
    show (s.finish sys ctx .forward rules).punct = s.punct from rfl, h1.punct, h1.hyphenator]
  simp only [h1.dotsCapsletter, h1.dotsBegcapsword, h1.dotsNumsign, reduceCtorEq, if_false, Option.isNone_none, Bool.and_true,
    if_true, BEq.rfl, Bool.true_and]
  congr 1
  simp [numChars]

/-- **C61**, what decides at which positions which rules may be used, in backward direction. -/
theorem C61_constraints_backward {p : Primary} (h : MainStage sys ctx .backward rules p) :
    p.constrainers = {
      numeric := if ctx.classes.members .litdigit = [] then none else some (numChars ctx.classes rules)
      caps :=
        let c : CapsDots := {
          capsletter := backDots (fun | .capsletter dots _ => some dots | _ => none) (letterDotsOf .backward rules) rules
          begcapsword := backDots (fun | .begcapsword dots _ => some dots | _ => none) (letterDotsOf .backward rules) rules
          endcapsword := backDots (fun | .endcapsword dots _ => some dots | _ => none) (letterDotsOf .backward rules) rules
          letters := letterCells sys ctx rules }
        if c.capsletter = none ∧ c.begcapsword = none then none else some c
      backNumeric :=
        let n : NumDots := {
          numsign := backDots (fun | .numsign dots => some dots | _ => none) (letterDotsOf .backward rules) rules
          nonumsign := backDots (fun | .nonumsign dots _ => some dots | _ => none) (letterDotsOf .backward rules) rules
          digits := ctx.dots.members .digit ++ ctx.dots.members .litdigit
          letters := letterCells sys ctx rules }
        if n.numsign = none then none else some n
      hyphenation := none
      punctuation := none } := by
  obtain ⟨p₀, s, hs, h1, h2, h3⟩ := h.afterLoops
  rw [h3]
  unfold Signs.constrainers
  rw [h1.finish_numCons, show (s.finish sys ctx .backward rules).capsDots =
      { s.capsDots with letters := letterCells sys ctx rules } from rfl,
    show (s.finish sys ctx .backward rules).numDots = { s.numDots with
      digits := ctx.dots.members .digit ++ ctx.dots.members .litdigit, letters := letterCells sys ctx rules } from rfl]
  have e1 := h1.dotsCapsletter
  have e2 := h1.dotsBegcapsword
  have e3 := h1.dotsEndcapsword
  have e4 := h1.dotsNumsign
  have e5 := h1.dotsNonumsign
  rw [if_pos rfl] at e1 e2 e3 e4 e5
  rw [← e1, ← e2, ← e3, ← e4, ← e5]
  congr 1
  · simp [numChars]
  · simp
  · simp

end

/-! ## A concrete table -/

/-- Two `capsletter` lines, the second counts; two emphasis classes whose lines are mixed; two `midnum` lines. -/
def configTable : String :=
  "decpoint . 46\nuppercase A 1\nlitdigit 1 16\nnumsign 3456\nmidnum , 2\nmidnum - 36\nemphclass bold\ncapsletter 6\n" ++
  "begemph italic 46\nbegemph bold 456\ncapsletter 46\nbegemph italic 3\nletsign 56\nnoletsign a\nnoletsign b\n"

/-- Its rules. -/
def configRules : List Anchored := ((parseTable configTable.toList none).toOption.getD []) |> anchor

/-- Its context. -/
def configCtx : TableCtx := TableCtx.compile demoSys.alpha configRules

example : (Primary.compile demoSys configCtx .forward configRules).toOption.isSome = true := by decide +kernel

example : (capsConfig configCtx.classes configRules).capsletter = some (indication ['⠨'] ⟨.other, 10⟩) ∧
    (capsConfig configCtx.classes configRules).lenPhrase = 2 ∧ (capsConfig configCtx.classes configRules).upper = ['A'] ∧
    numChars configCtx.classes configRules = ⟨['1'], [], ['.', ',', '-']⟩ ∧
    (emphNames configRules).map String.ofList = ["bold", "italic"] ∧
    (emphConfig configCtx.classes "italic".toList configRules).begemph = some (indication ['⠄'] ⟨.other, 11⟩) ∧
    (emphConfig configCtx.classes "bold".toList configRules).begemph = some (indication ['⠸'] ⟨.other, 9⟩) ∧
    allChars (fun | .noletsign cs => some cs | _ => none) configRules = ['a', 'b'] := by decide +kernel

end Louis
