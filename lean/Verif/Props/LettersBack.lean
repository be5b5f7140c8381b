import Verif.Props.Letters
import Verif.Props.HashOrder

/-!
# C85: uncontracted braille with capitals, backward
-/

namespace Louis

variable {sys : Sys} {ctx : TableCtx} {d : Direction} {rules : List Anchored} {p : Primary} {sign : Char} {num : Option Char}

theorem flatMap_split {α β : Type} {f : α → List β} : ∀ {l : List α} {a b : List β} {u : β}, l.flatMap f = a ++ u :: b →
    ∃ pre c post x y, l = pre ++ c :: post ∧ f c = x ++ u :: y ∧ a = pre.flatMap f ++ x ∧ b = y ++ post.flatMap f := by
  intro l
  induction l with
  | nil => intro a b u h; simp at h
  | cons c l ih =>
    intro a b u h
    rw [List.flatMap_cons, List.append_eq_append_iff] at h
    rcases h with ⟨m, rfl, h⟩ | ⟨m, h1, h2⟩
    · obtain ⟨pre, c', post, x, y, rfl, h2, rfl, rfl⟩ := ih h
      exact ⟨c :: pre, c', post, x, y, rfl, h2, by simp, rfl⟩
    · cases m with
      | nil =>
        rw [List.append_nil] at h1
        obtain ⟨pre, c', post, x, y, rfl, h3, h4, rfl⟩ := ih (a := []) (b := b) (u := u) (by simpa using h2.symm)
        exact ⟨c :: pre, c', post, x, y, rfl, h3, by rw [List.flatMap_cons, List.append_assoc, ← h4, h1]; simp, rfl⟩
      | cons v m =>
        rw [List.cons_append] at h2
        injection h2 with h2 h3
        subst h2
        exact ⟨[], c, l, a, m, rfl, h1, rfl, h3⟩

/-! ## What is read -/

theorem keptOf_plain {d : Direction} {e : TrieRule} {es : List TrieRule} (h : ∀ x ∈ es, x.prec = .default) :
    keptOf d (e :: es) = some (Resolved.new (e.from d) (e.to d) (e.weight d) e.stage (some e.origin)) := by
  have : es.filter (fun x => x.prec != .default) = [] := List.filter_eq_nil_iff.2 fun x hx => by rw [h x hx]; decide
  show some (match (es.filter (fun x => x.prec != .default)).getLast? with
    | some x => Resolved.new (x.from d) (x.to d) (x.from d).length x.stage (some x.origin)
    | none => Resolved.new (e.from d) (e.to d) (e.weight d) e.stage (some e.origin)) = _
  rw [this]
  rfl

/-- Where all entries that stand at the beginning of a text are `w`, only what is kept for `w` is offered. -/
theorem offers_only {T : MainTable} {lower : Char → List Char} {entries : List TrieRule} (h : ∀ e ∈ entries, e.Anywhere)
    {w rest : Text} {prev : Option Char} (hlow : ∀ c ∈ w ++ rest, lower c = [c])
    (huniq : ∀ e ∈ entries, e.from T.dir <+: w ++ rest → e.from T.dir = w)
    {k : Resolved} (hk : keptOf T.dir (entries.filter fun e => decide (e.from T.dir = w)) = some k) (o : Resolved) :
    T.Offers lower entries (w ++ rest) prev o ↔ o = k := by
  have same : ∀ e ∈ entries, e.from T.dir = w →
      (entries.filter fun e' => e'.path T.neighbours T.dir = e.path T.neighbours T.dir) =
        entries.filter fun e => decide (e.from T.dir = w) := by
    intro e he hw
    apply List.filter_congr
    intro e' he'
    rw [(h e he).path_eq, (h e' he').path_eq, hw]
    simp only [decide_eq_decide]
    exact ⟨chars_inj, fun e => by rw [e]⟩
  constructor
  · rintro ⟨e, he, ⟨x, r, e1, s1, -⟩, k1⟩
    have hx : x = e.from T.dir := s1.fixed fun c hc => hlow c (by rw [e1]; simp [hc])
    have hw := huniq e he ⟨r, by rw [e1, hx]⟩
    rw [same e he hw, hk] at k1
    injection k1 with k1
    exact k1.symm
  · rintro rfl
    have hne : (entries.filter fun e => decide (e.from T.dir = w)) ≠ [] := by
      intro e; rw [e] at hk; cases hk
    obtain ⟨e, hm⟩ := List.exists_mem_of_ne_nil _ hne
    have he := (List.mem_filter.1 hm).1
    have hw : e.from T.dir = w := by simpa using (List.mem_filter.1 hm).2
    refine ⟨e, he, ⟨w, rest, rfl, ?_, ?_⟩, by rw [same e he hw]; exact hk⟩
    · rw [hw]; exact spells_self fun c hc => hlow c (by simp [hc])
    · obtain ⟨h1, h2, h3⟩ := h e he
      rw [h1, h2, h3]
      refine ⟨fun _ h => ?_, fun _ h => ?_, fun _ h => ?_, fun _ h => ?_⟩ <;> cases h

theorem lastHeaviest_only {l : List Resolved} {k : Resolved} (h : ∀ o, o ∈ l ↔ o = k) : lastHeaviest l = some k := by
  cases e : lastHeaviest l with
  | none => rw [lastHeaviest_none e] at h; exact absurd ((h k).2 rfl) List.not_mem_nil
  | some o => rw [(h o).1 (lastHeaviest_mem e)]

/-- An item that is read wherever its cells stand. -/
theorem step_only {T : MainTable} {L : Listing} {f : Constraints} {lower : Char → List Char} (hL : T.Lists lower L)
    (hu : T.unbroken = []) {w rest : Text} {k : Resolved} {place : Nat}
    (hdig : f.preferDigit place = false ∨ ∀ y, (w ++ rest).head? = some y → T.digits.find? (·.1 == y) = none) (hcomp : f.useComp6 place = false) (hnum : f.dontContract place = false)
    (hk : allowedHere f place k = true) (prev : Option Char)
    (h : ∀ o, T.Offers lower T.entries (w ++ rest) prev o ↔ o = k) : T.step L f place (w ++ rest) prev = some ⟨.line, k⟩ := by
  have l1 := listed_none (l := L.unbroken (w ++ rest) prev) (T := T) (lower := lower)
      (fun o => by rw [← hu]; exact hL.unbroken _ _ o)
  have hd : ∀ l, T.digitsFirst f place (w ++ rest) l = l := by
    intro l
    unfold MainTable.digitsFirst
    split
    · next hp =>
      rcases hdig with hdig | hdig
      · rw [hdig] at hp; cases hp.2
      · cases e : (w ++ rest).head? with
        | none => rfl
        | some y => rw [Option.bind_some, hdig y e]; rfl
    · rfl
  unfold MainTable.step
  rw [l1, hd, hcomp, hnum]
  have : lastHeaviest ((L.entries (w ++ rest) prev).filter (allowedHere f place)) = some k := by
    apply lastHeaviest_only
    intro o
    rw [List.mem_filter, hL.entries, h o]
    exact ⟨fun h => h.1, fun e => ⟨e, by rw [e]; exact hk⟩⟩
  have n : lastHeaviest [] = none := rfl
  simp [this, n]


/-! ## The entries of the table -/

/-- What an entry is. -/
theorem letter_entry (h : LetterByLetter sign num rules) :
    ∀ e ∈ trieRules .backward (tableOps (TableCtx.compile sys.alpha rules) .backward rules),
      (∃ r ∈ rules, r.origin.kind = .other ∧ ∃ s, (s = sign ∨ num = some s) ∧
        e = ⟨[], [s], none, none, [], .indicator, .main, r.origin⟩) ∨
      ∃ r ∈ rules, ∃ c dots, r.origin.kind = .other ∧ Spelt rules c dots ∧
        e = ⟨[c], dots, none, none, [], .default, .main, r.origin⟩ := by
  intro e he
  obtain ⟨op, hop, hx⟩ := List.mem_filterMap.1 he
  obtain ⟨r, hr, hf⟩ := letter_table h op hop
  have kind : r.origin.kind = .other := by
    rcases h.lines r hr with ⟨hq, -⟩ | ⟨k, c', cells, cons, e', -⟩ | ⟨c', b, e'⟩ | ⟨cells, cons, e', -⟩ | ⟨n, cells, -, e', -⟩
    · show (match r.rule with | .prepunc _ _ _ => OriginKind.prepunc | .postpunc _ _ _ => .postpunc | _ => .other) = _
      split <;> first | rfl | (next e => rw [e] at hq; cases hq)
    all_goals
      show (match r.rule with | .prepunc _ _ _ => OriginKind.prepunc | .postpunc _ _ _ => .postpunc | _ => .other) = _
      rw [e']
  split at hx
  · rw [if_pos rfl] at hx
    cases hx
    refine .inr ⟨r, hr, _, _, kind, letter_spelt h hr hf, ?_⟩
    rw [hf.1, hf.2.1]
  · cases hx
    obtain ⟨-, -, s, hs, e2⟩ := hf
    exact .inl ⟨r, hr, kind, s, hs, e2⟩
  · cases hx

theorem letter_anywhere (h : LetterByLetter sign num rules) :
    ∀ e ∈ trieRules .backward (tableOps (TableCtx.compile sys.alpha rules) .backward rules), e.Anywhere := by
  intro e he
  rcases letter_entry h e he with ⟨r, -, -, s, -, rfl⟩ | ⟨r, -, c, dots, -, -, rfl⟩ <;> exact ⟨rfl, rfl, rfl⟩

/-- The cells of a character are those of a line. -/
theorem Spelt.line {c : Char} {dots : Text} (h : Spelt rules c dots) : ∃ r ∈ rules, ∃ b, r.rule.Defines b dots := by
  cases h with
  | direct hr hd => exact ⟨_, hr, _, hd⟩
  | derived _ _ hq hd => exact ⟨_, hq, _, hd⟩

/-- Where the cells of a character stand, only they are read. -/
theorem letter_alone (h : SignsApart sign num rules) (hun : ∀ r ∈ rules, ∀ r' ∈ rules, ∀ c dots c' dots', r.rule.Defines c dots →
      r'.rule.Defines c' dots' → dots <+: dots' → dots = dots') {w rest : Text} {low : Char} {r : Anchored} (hr : r ∈ rules)
    (hd : r.rule.Defines low w) :
    ∀ e ∈ trieRules .backward (tableOps (TableCtx.compile sys.alpha rules) .backward rules),
      e.from .backward <+: w ++ rest → e.from .backward = w := by
  intro e he hp
  rcases letter_entry h.toLetterByLetter e he with ⟨q, -, -, s, hs, rfl⟩ | ⟨q, -, c, dots, -, hs, rfl⟩
  · exfalso
    have hp : [s] <+: w ++ rest := hp
    cases w with
    | nil => exact h.nonempty r hr _ _ hd rfl
    | cons x w =>
      have := List.cons_prefix_cons.1 hp
      exact h.unsigned s hs r hr _ _ hd (by rw [this.1]; simp)
  · have hp : dots <+: w ++ rest := hp
    show dots = w
    obtain ⟨q', hq', b, hb⟩ := hs.line
    rcases List.prefix_or_prefix_of_prefix hp (List.prefix_append w rest) with hp | hp
    · exact hun q' hq' r hr _ _ _ _ hb hd hp
    · exact (hun r hr q' hq' _ _ _ _ hd hb hp).symm

theorem ReadableBack.same (h : ReadableBack sign num rules) : ∀ r ∈ rules, ∀ r' ∈ rules, ∀ c dots c' dots', r.rule.Defines c dots →
    r'.rule.Defines c' dots' → dots <+: dots' → dots = dots' := by
  intro r hr r' hr' c dots c' dots' hd hd' hp
  have := h.unambiguous r hr r' hr' c dots c' dots' hd hd' hp
  subst this
  exact h.one _ _ _ (.direct hr hd) (.direct hr' hd')

/-- Where a line puts the definition of its character. -/
theorem letter_own (h : LetterByLetter sign num rules) {r : Anchored} (hr : r ∈ rules) {c : Char} {dots : Text}
    (hd : r.rule.Defines c dots) : (∃ o, .char c dots .default o ∈ r.firstOps) ∨
      ∃ o, .char c dots .default o ∈ r.opsD ctx .backward (litdigitChars .backward rules) (letterDotsOf .backward rules) := by
  obtain ⟨k, cells, cons, e, hk, rfl⟩ := letter_defines h hr hd
  have hp : r.rule.prec = .default := by rw [e]; rfl
  cases k
  case hyphen =>
    refine .inl ⟨r.origin, ?_⟩
    unfold Anchored.firstOps
    rw [hp, e]
    exact List.mem_singleton.2 rfl
  case litdigit =>
    refine .inr ⟨r.origin, ?_⟩
    unfold Anchored.opsD Anchored.ops
    rw [hp, e]
    exact List.mem_cons_self
  case digit =>
    refine .inr ⟨r.origin, ?_⟩
    unfold Anchored.opsD Anchored.ops
    rw [hp, e]
    exact List.mem_append_left _ (List.mem_singleton.2 rfl)
  all_goals
    refine .inr ⟨r.origin, ?_⟩
    unfold Anchored.opsD Anchored.ops
    rw [hp, e]
    exact List.mem_singleton.2 rfl

/-- A line of the character is the first one with the cells (hyphens come first of all). -/
def FirstWith (rules : List Anchored) (c : Char) (w : Text) : Prop :=
  ∃ pre r post, rules = pre ++ r :: post ∧ r.rule.Defines c w ∧
    ((∀ q ∈ pre, ∀ b, ¬ q.rule.Defines b w) ∨ ∃ cells cons, r.rule = .charDef .hyphen c cells cons)

theorem FirstWith.defines {c : Char} {w : Text} (h : FirstWith rules c w) : ∃ r ∈ rules, r.rule.Defines c w := by
  obtain ⟨pre, r, post, e, hd, -⟩ := h
  exact ⟨r, by rw [e]; simp, hd⟩

/-- The first of the entries with the cells of a character is that of a definition. -/
theorem letter_order (h : LetterByLetter sign num rules)
    (habove : ∀ pre r post, rules = pre ++ r :: post → ∀ name c b, r.rule = .base name c b → ∃ q ∈ pre, ∃ dots, q.rule.Defines b dots)
    {a b : List TrieRule} {c : Char} {w : Text} {e : TrieRule}
    (he : trieRules .backward (tableOps (TableCtx.compile sys.alpha rules) .backward rules) = a ++ e :: b)
    (hc : e.chars = [c]) (hw : e.dots = w) (hfirst : ∀ x ∈ a, x.dots ≠ w) : FirstWith rules c w := by
  unfold trieRules at he
  obtain ⟨l1, l2, el, e1, e2⟩ := List.filterMap_eq_append_iff.1 he
  obtain ⟨m1, op, m2, em, en, eop, -⟩ := List.filterMap_eq_cons_iff.1 e2
  subst em
  have hop : ∃ o, op = .char c w .default o := by
    have hmem : op ∈ tableOps (TableCtx.compile sys.alpha rules) .backward rules := by rw [el]; simp
    obtain ⟨r, -, hf⟩ := letter_table h op hmem
    split at eop
    · rw [if_pos rfl] at eop
      cases eop
      cases hc
      cases hw
      exact ⟨_, by rw [hf.1]⟩
    · cases eop
      obtain ⟨-, -, s, -, e3⟩ := hf
      rw [e3] at hc
      cases hc
    · cases eop
  obtain ⟨o, rfl⟩ := hop
  have noB : ∀ b' o', .char b' w .default o' ∉ l1 := by
    intro b' o' hm
    have : (⟨[b'], w, none, none, [], .default, .main, o'⟩ : TrieRule) ∈ a := by
      rw [← e1]
      exact List.mem_filterMap.2 ⟨_, hm, rfl⟩
    exact hfirst _ this rfl
  have noB' : ∀ b' o', .char b' w .default o' ∉ m1 := by
    intro b' o' hm
    exact absurd (en _ hm) (by simp)
  have el : (rules.flatMap Anchored.firstOps) ++ (rules.flatMap fun r => r.opsD (TableCtx.compile sys.alpha rules) .backward
      (litdigitChars .backward rules) (letterDotsOf .backward rules)) = (l1 ++ m1) ++ .char c w .default o :: m2 := by
    rw [List.append_assoc]; exact el
  have no : ∀ b' o', .char b' w .default o' ∉ l1 ++ m1 := fun b' o' hm => by
    rcases List.mem_append.1 hm with hm | hm
    · exact noB b' o' hm
    · exact noB' b' o' hm
  have key : ∀ m, l1 ++ m1 = rules.flatMap Anchored.firstOps ++ m →
      (rules.flatMap fun r => r.opsD (TableCtx.compile sys.alpha rules) .backward (litdigitChars .backward rules)
        (letterDotsOf .backward rules)) = m ++ .char c w .default o :: m2 → FirstWith rules c w := by
    intro m hm h2
    obtain ⟨rp, r, rs, x, y, er, eo, ea, -⟩ := flatMap_split h2
    have hr : r ∈ rules := by rw [er]; simp
    have hmem : .char c w .default o ∈ r.opsD (TableCtx.compile sys.alpha rules) .backward (litdigitChars .backward rules)
        (letterDotsOf .backward rules) := by rw [eo]; simp
    have hf := letter_ops (ctx := TableCtx.compile sys.alpha rules) (d := .backward) h hr _ hmem
    rcases hf.2.2 with hd | ⟨name, b', e', hb⟩
    · refine ⟨rp, r, rs, er, hd, .inl fun q hq b' hb => ?_⟩
      rcases letter_own (ctx := TableCtx.compile sys.alpha rules) h (by rw [er]; simp [hq]) hb with ⟨o', ho'⟩ | ⟨o', ho'⟩
      · exact no b' o' (by rw [hm]; exact List.mem_append_left _ (List.mem_flatMap.2 ⟨q, by rw [er]; simp [hq], ho'⟩))
      · exact no b' o' (by
          rw [hm, ea]
          exact List.mem_append_right _ (List.mem_append_left _ (List.mem_flatMap.2 ⟨q, hq, ho'⟩)))
    · exfalso
      obtain ⟨q, hq, dots, hqd⟩ := habove rp r rs er name c b' e'
      have hqr : q ∈ rules := by rw [er]; simp [hq]
      have := letter_defs (sys := sys) h hqr hqd
      rw [hb] at this
      cases this
      rcases letter_own (ctx := TableCtx.compile sys.alpha rules) h hqr hqd with ⟨o', ho'⟩ | ⟨o', ho'⟩
      · exact no b' o' (by rw [hm]; exact List.mem_append_left _ (List.mem_flatMap.2 ⟨q, hqr, ho'⟩))
      · exact no b' o' (by
          rw [hm, ea]
          exact List.mem_append_right _ (List.mem_append_left _ (List.mem_flatMap.2 ⟨q, hq, ho'⟩)))
  rcases List.append_eq_append_iff.1 el with ⟨m, hm, h2⟩ | ⟨m, hm, h2⟩
  · exact key m hm h2
  · cases m with
    | nil => exact key [] (by rw [List.append_nil] at hm ⊢; exact hm.symm) (by simpa using h2.symm)
    | cons z m =>
      rw [List.cons_append] at h2
      injection h2 with h2 _
      subst h2
      have hmem : PrimOp.char c w .default o ∈ rules.flatMap Anchored.firstOps := by rw [hm]; simp
      obtain ⟨r, hr, hf⟩ := List.mem_flatMap.1 hmem
      obtain ⟨pre, post, er⟩ := List.append_of_mem hr
      have hff := letter_first (ctx := TableCtx.compile sys.alpha rules) (d := .backward) h hr _ hf
      rcases hff.2.2 with hd | ⟨name, b', e', hb⟩
      · refine ⟨pre, r, post, er, hd, .inr ?_⟩
        unfold Anchored.firstOps at hf
        split at hf
        · next c' dots e =>
          obtain ⟨k, cells, cons, e', -⟩ := letter_defines h hr hd
          rw [e] at e'
          cases e'
        · next c' dots cons e =>
          injection List.mem_singleton.1 hf with h1
          exact ⟨_, _, by rw [e, h1]⟩
        · cases hf
      · unfold Anchored.firstOps at hf
        rw [e'] at hf
        cases hf


/-- What is read where the text begins with `w`. -/
def ReadAs (T : MainTable) (w written : Text) (k : Resolved) : Prop :=
  k.input = w ∧ k.output = written ∧ k.length = w.length ∧ (∀ f place, allowedHere f place k = true) ∧
    ∀ lower rest prev, (∀ c ∈ w ++ rest, lower c = [c]) → ∀ o, T.Offers lower T.entries (w ++ rest) prev o ↔ o = k

theorem allowedHere_other {f : Constraints} {place : Nat} {k : Resolved} {o : Origin} (h : k.origin = some o) (ho : o.kind = .other) :
    allowedHere f place k = true := by
  unfold allowedHere
  rw [h]
  show (match some o.kind with | some .prepunc => _ | some .postpunc => _ | _ => true) = true
  rw [ho]

/-- The cells of a character are read as the first character they define. -/
theorem first_reads (h : SignsApart sign num rules)
    (habove : ∀ pre r post, rules = pre ++ r :: post → ∀ name c b, r.rule = .base name c b → ∃ q ∈ pre, ∃ dots, q.rule.Defines b dots)
    (hun : ∀ r ∈ rules, ∀ r' ∈ rules, ∀ c dots c' dots', r.rule.Defines c dots → r'.rule.Defines c' dots' → dots <+: dots' → dots = dots')
    {w : Text} {low : Char} {r : Anchored} (hr : r ∈ rules) (hd : r.rule.Defines low w) :
    ∃ c k, FirstWith rules c w ∧ ReadAs (mainTable ((TableCtx.compile sys.alpha rules).prim .backward) .backward
      (tableOps (TableCtx.compile sys.alpha rules) .backward rules)) w [c] k := by
  have hall := letter_anywhere (sys := sys) h.toLetterByLetter
  have hent := letter_entry (sys := sys) h.toLetterByLetter
  have halone := fun rest => letter_alone (sys := sys) (rest := rest) h hun hr hd
  have hord := fun {a b c e} => letter_order (sys := sys) (a := a) (b := b) (c := c) (w := w) (e := e) h.toLetterByLetter habove
  obtain ⟨o, hop⟩ := letter_present (sys := sys) (d := .backward) h.toLetterByLetter (.direct hr hd)
  have hm : (⟨[low], w, none, none, [], .default, .main, o⟩ : TrieRule) ∈
      trieRules .backward (tableOps (TableCtx.compile sys.alpha rules) .backward rules) := List.mem_filterMap.2 ⟨_, hop, rfl⟩
  have hsw : ∀ s, s = sign ∨ num = some s → [s] ≠ w := by
    rintro s hs rfl
    exact h.unsigned s hs r hr _ _ hd (by simp)
  generalize hE : trieRules .backward (tableOps (TableCtx.compile sys.alpha rules) .backward rules) = E at *
  cases hF : E.filter fun e => decide (e.from .backward = w) with
  | nil => exact absurd (List.filter_eq_nil_iff.1 hF _ hm) (by simp [TrieRule.from])
  | cons e es =>
    obtain ⟨l1, l2, e1, hno, hyes, hrest⟩ := List.filter_eq_cons_iff.1 hF
    have dots : ∀ x ∈ e :: es, ∃ r ∈ rules, ∃ c, r.origin.kind = .other ∧ x = ⟨[c], w, none, none, [], .default, .main, r.origin⟩ := by
      intro x hx
      rw [← hF] at hx
      have hw : x.from .backward = w := by simpa using (List.mem_filter.1 hx).2
      rcases hent x (List.mem_filter.1 hx).1 with ⟨q, -, -, s, hs, rfl⟩ | ⟨q, hq, c, dots, hk, -, rfl⟩
      · exact absurd hw (hsw s hs)
      · cases hw
        exact ⟨q, hq, c, hk, rfl⟩
    obtain ⟨q, hq, c, hk, rfl⟩ := dots e (List.mem_cons_self ..)
    have hfirst := hord e1 rfl rfl (fun x hx e => hno x hx (decide_eq_true e))
    obtain ⟨k, hkept, k1, k2, k3, k4⟩ : ∃ k, keptOf .backward (⟨[c], w, none, none, [], .default, .main, q.origin⟩ :: es) = some k ∧
        k.input = w ∧ k.output = [c] ∧ k.length = w.length ∧ k.origin = some q.origin :=
      ⟨_, keptOf_plain (fun x hx => by obtain ⟨_, -, _, -, rfl⟩ := dots x (List.mem_cons_of_mem _ hx); rfl), rfl, rfl, rfl, rfl⟩
    refine ⟨c, k, hfirst, k1, k2, k3, fun f place => allowedHere_other k4 hk, ?_⟩
    intro lower rest prev hlow o
    refine offers_only (T := mainTable _ _ _) ?_ hlow ?_ ?_ o
    · show ∀ e ∈ trieRules .backward _, _
      rw [hE]; exact hall
    · show ∀ e ∈ trieRules .backward _, _
      rw [hE]; exact halone rest
    · show keptOf .backward (List.filter (fun e => decide (e.from .backward = w)) (trieRules .backward _)) = _
      rw [hE, hF]
      exact hkept

/-- The cells of a character are read as the character they define. -/
theorem letter_reads (h : ReadableBack sign num rules) {w : Text} {low : Char} {r : Anchored} (hr : r ∈ rules)
    (hd : r.rule.Defines low w) : ∃ k, ReadAs (mainTable ((TableCtx.compile sys.alpha rules).prim .backward) .backward
      (tableOps (TableCtx.compile sys.alpha rules) .backward rules)) w [low] k := by
  obtain ⟨c, k, hf, hk⟩ := first_reads (sys := sys) h.toSignsApart h.above h.same hr hd
  obtain ⟨q, hq, hqd⟩ := hf.defines
  have : c = low := h.unambiguous q hq r hr _ _ _ _ hqd hd (List.prefix_refl _)
  subst this
  exact ⟨k, hk⟩

/-- A sign is read as nothing. -/
theorem sign_reads (h : SignsApart sign num rules) {s : Char} (hs : s = sign ∨ num = some s) : ∃ k, ReadAs (mainTable ((TableCtx.compile sys.alpha rules).prim .backward)
      .backward (tableOps (TableCtx.compile sys.alpha rules) .backward rules)) [s] [] k := by
  have hall := letter_anywhere (sys := sys) h.toLetterByLetter
  have hent := letter_entry (sys := sys) h.toLetterByLetter
  obtain ⟨r, hr, cells, hcells, hp, hops⟩ : ∃ r ∈ rules, ∃ cells : Cells, cells.toText = [s] ∧ r.rule.prec = .indicator ∧
      r.ops (TableCtx.compile sys.alpha rules) .backward (litdigitChars .backward rules) (letterDotsOf .backward rules) =
        .ok (r.signOps .backward (letterDotsOf .backward rules) cells) := by
    rcases hs with rfl | hs
    · obtain ⟨r, hr, cells, cons, e⟩ := h.signed
      refine ⟨r, hr, cells, ?_, by rw [e]; rfl, by unfold Anchored.ops; rw [e]⟩
      rcases h.lines r hr with ⟨hq, -⟩ | ⟨k, c, cells', cons', e', -⟩ | ⟨c, b, e'⟩ | ⟨cells', cons', e', hs⟩ | ⟨_, _, -, e', -⟩
      · rw [e] at hq; cases hq
      · rw [e] at e'; cases e'
      · rw [e] at e'; cases e'
      · rw [e] at e'; cases e'; exact hs
      · rw [e] at e'; cases e'
    · obtain ⟨r, hr, cells, e⟩ := h.numbered (by rw [hs]; simp)
      refine ⟨r, hr, cells, ?_, by rw [e]; rfl, by unfold Anchored.ops; rw [e]⟩
      rcases h.lines r hr with ⟨hq, -⟩ | ⟨k, c, cells', cons', e', -⟩ | ⟨c, b, e'⟩ | ⟨cells', cons', e', -⟩ | ⟨n, _, hn, e', ht⟩
      · rw [e] at hq; cases hq
      · rw [e] at e'; cases e'
      · rw [e] at e'; cases e'
      · rw [e] at e'; cases e'
      · rw [e] at e'; cases e'
        rw [hs] at hn
        cases hn
        exact ht
  have hm : (⟨[], [s], none, none, [], .indicator, .main, r.origin⟩ : TrieRule) ∈
      trieRules .backward (tableOps (TableCtx.compile sys.alpha rules) .backward rules) := by
    refine List.mem_filterMap.2 ⟨.rule false ⟨[], [s], none, none, [], .indicator, .main, r.origin⟩, ?_, rfl⟩
    refine List.mem_append_right _ (List.mem_flatMap.2 ⟨r, hr, ?_⟩)
    have hno : (letterDotsOf .backward rules).contains [s] = false := by
      rw [List.contains_eq_mem, decide_eq_false_iff_not, C40_letter_cells]
      rintro ⟨q, hq, k, c, dots, cons', e', -, ht⟩
      exact h.unsigned s hs q hq c dots.toText (by rw [e']; exact .inl ⟨_, _, _, rfl, rfl⟩) (by rw [← ht]; simp)
    unfold Anchored.opsD
    rw [hops]
    show _ ∈ Anchored.signOps r .backward (letterDotsOf .backward rules) cells
    unfold Anchored.signOps
    rw [hcells, hno, hp]
    simp
  have huniq : ∀ rest, ∀ e ∈ trieRules .backward (tableOps (TableCtx.compile sys.alpha rules) .backward rules),
      e.from .backward <+: [s] ++ rest → e.from .backward = [s] := by
    intro rest e he hp
    rcases hent e he with ⟨q, -, -, s', hs', rfl⟩ | ⟨q, -, c, dots, -, hc, rfl⟩
    · have hp : [s'] <+: [s] ++ rest := hp
      have := (List.cons_prefix_cons.1 hp).1
      subst this
      rfl
    · exfalso
      obtain ⟨q, hq, b, hb⟩ := hc.line
      have hp : dots <+: [s] ++ rest := hp
      cases dots with
      | nil => exact h.nonempty q hq _ _ hb rfl
      | cons x dots =>
        have := List.cons_prefix_cons.1 hp
        exact h.unsigned s hs q hq _ _ hb (by rw [this.1]; simp)
  generalize hE : trieRules .backward (tableOps (TableCtx.compile sys.alpha rules) .backward rules) = E at *
  have hf : ∀ x ∈ E.filter fun e => decide (e.from .backward = [s]), ∃ r ∈ rules, r.origin.kind = .other ∧
      x = ⟨[], [s], none, none, [], .indicator, .main, r.origin⟩ := by
    intro x hx
    rcases hent x (List.mem_filter.1 hx).1 with ⟨q, hq, hk, s', -, rfl⟩ | ⟨q, hq, c, dots, hk, hc, rfl⟩
    · have hw : [s'] = [s] := of_decide_eq_true (List.mem_filter.1 hx).2
      rw [hw]
      exact ⟨q, hq, hk, rfl⟩
    · exfalso
      have hw : dots = [s] := of_decide_eq_true (List.mem_filter.1 hx).2
      obtain ⟨q, hq, b, hb⟩ := hc.line
      exact h.unsigned s hs q hq _ _ hb (by rw [hw]; simp)
  have hk : ∃ k, keptOf .backward (E.filter fun e => decide (e.from .backward = [s])) = some k ∧ k.input = [s] ∧
      k.output = [] ∧ k.length = 1 ∧ ∃ o, k.origin = some o ∧ o.kind = .other := by
    cases hF : E.filter fun e => decide (e.from .backward = [s]) with
    | nil => exact absurd (List.filter_eq_nil_iff.1 hF _ hm) (by simp [TrieRule.from])
    | cons e es =>
      rw [hF] at hf
      obtain ⟨q, -, hk, rfl⟩ := hf e (List.mem_cons_self ..)
      unfold keptOf
      refine ⟨_, rfl, ?_⟩
      split
      · next x hx =>
        obtain ⟨q', -, hk', rfl⟩ := hf x (List.mem_cons_of_mem _ (List.mem_filter.1 (List.mem_of_getLast? hx)).1)
        exact ⟨rfl, rfl, rfl, _, rfl, hk'⟩
      · exact ⟨rfl, rfl, rfl, _, rfl, hk⟩
  obtain ⟨k, hk, k1, k2, k3, o, k4, k5⟩ := hk
  refine ⟨k, k1, k2, k3, fun f place => allowedHere_other k4 k5, ?_⟩
  intro lower rest prev hlow o'
  refine offers_only (T := mainTable _ _ _) ?_ hlow ?_ ?_ o'
  · show ∀ e ∈ trieRules .backward _, _
    rw [hE]; exact hall
  · show ∀ e ∈ trieRules .backward _, _
    rw [hE]; exact huniq rest
  · show keptOf .backward (List.filter (fun e => decide (e.from .backward = [s])) (trieRules .backward _)) = _
    rw [hE]
    exact hk


/-! ## What is a capital -/

theorem mark_reading {d : CapsDots} (h1 : d.capsletter = some [sign]) (h2 : d.begcapsword = none) (text : Text) :
    capsText d (text.map fun x => if x = sign then .mark else .cell x) = text ∧
    ∀ t ∈ text.map (fun x => if x = sign then CapsTok.mark else .cell x), ∀ rest, t.Right d rest := by
  constructor
  · induction text with
    | nil => rfl
    | cons x text ih =>
      unfold capsText at ih ⊢
      rw [List.map_cons, List.flatMap_cons, ih]
      by_cases hx : x = sign
      · rw [if_pos hx, hx]
        show d.capsletter.getD [] ++ text = _
        rw [h1]; rfl
      · rw [if_neg hx]; rfl
  · intro t ht rest
    have no : ∀ rest, ¬ Stands d.begcapsword rest := by
      rintro rest ⟨s, hs, -⟩
      rw [h2] at hs; cases hs
    obtain ⟨x, -, rfl⟩ := List.mem_map.1 ht
    by_cases hx : x = sign
    · rw [if_pos hx]
      exact ⟨by rw [h1]; simp, no _⟩
    · rw [if_neg hx]
      refine ⟨no _, ?_⟩
      rintro ⟨s, hs, hp⟩
      rw [h1] at hs
      cases hs
      exact hx (List.cons_prefix_cons.1 hp).1.symm

/-- A place is capitalised where the sign stands before it. -/
theorem afterSign_iff {d : CapsDots} (h1 : d.capsletter = some [sign]) (h2 : d.begcapsword = none) (text : Text) (pos : Nat) :
    AfterCapitalSign d text pos ↔ ∃ a b, text = a ++ sign :: b ∧ b ≠ [] ∧ pos = a.length + 1 := by
  have len : ∀ x : List CapsTok, (capsText d (x ++ [.mark])).length = (capsText d x).length + 1 := by
    intro x
    show ((x ++ [CapsTok.mark]).flatMap (CapsTok.text d)).length = _
    rw [List.flatMap_append, List.length_append]
    congr 1
    show ([CapsTok.mark].flatMap (CapsTok.text d)).length = 1
    rw [List.flatMap_singleton]
    show (d.capsletter.getD []).length = 1
    rw [h1]; rfl
  constructor
  · rintro ⟨hlt, ts, hr, x, y, rfl, rfl⟩
    rw [len] at hlt ⊢
    have ht : text = capsText d x ++ sign :: capsText d y := by
      rw [← hr.text]
      unfold capsText
      rw [List.flatMap_append, List.flatMap_cons]
      show _ ++ (d.capsletter.getD [] ++ _) = _
      rw [h1]; rfl
    refine ⟨_, _, ht, ?_, rfl⟩
    intro e
    rw [ht, e] at hlt
    simp at hlt
  · rintro ⟨a, b, rfl, hb, rfl⟩
    obtain ⟨e, hr⟩ := mark_reading h1 h2 (a ++ sign :: b)
    refine ⟨?_, _, ⟨e, fun x t y ht => hr t (by rw [ht]; simp) _⟩, a.map (fun x => if x = sign then .mark else .cell x), b.map (fun x => if x = sign then .mark else .cell x), ?_, ?_⟩
    · have := List.length_pos_iff.2 hb
      simp only [List.length_append, List.length_cons]
      omega
    · simp
    · rw [len, (mark_reading h1 h2 a).1]

theorem backDots_all {f : Rule → Option Cells} {L : List Text} {t : Text}
    (all : ∀ q ∈ rules, ∀ dots, f q.rule = some dots → dots.toText = t) (ex : ∃ r ∈ rules, ∃ dots, f r.rule = some dots)
    (hno : L.contains t = false) : backDots f L rules = some t := by
  unfold backDots
  obtain ⟨r, hr, dots, hd⟩ := ex
  generalize hg : (fun r : Anchored => (match f r.rule with
      | some dots => if L.contains dots.toText then none else some dots.toText
      | none => none : Option Text)) = g
  have hgr : g r = some t := by
    rw [← hg]
    simp only [hd, all r hr _ hd, hno]
    rfl
  have all : ∀ q ∈ rules, ∀ u, g q = some u → u = t := by
    intro q hq u hu
    rw [← hg] at hu
    dsimp only at hu
    cases e : f q.rule with
    | none => rw [e] at hu; cases hu
    | some dots =>
      simp only [e, all q hq _ e, hno] at hu
      cases hu; rfl
  cases hl : latest g rules with
  | none =>
    unfold latest at hl
    rw [List.getLast?_eq_none_iff, List.filterMap_eq_nil_iff] at hl
    rw [hl r hr] at hgr; cases hgr
  | some u =>
    obtain ⟨q, hq, hqt⟩ := latest_of hl
    rw [all q hq u hqt]

theorem letter_backCaps (h : SignsApart sign num rules) :
    (backCaps sys (TableCtx.compile sys.alpha rules) rules).capsletter = some [sign] ∧
    (backCaps sys (TableCtx.compile sys.alpha rules) rules).begcapsword = none := by
  have hk := letter_kinds h.toLetterByLetter
  constructor
  · obtain ⟨r, hr, cells, cons, e⟩ := h.signed
    have sgn : ∀ r ∈ rules, ∀ cells cons, r.rule = .capsletter cells cons → cells.toText = [sign] := by
      intro r hr cells cons e
      rcases h.lines r hr with ⟨hq, -⟩ | ⟨k, c, cells', cons', e', -⟩ | ⟨c, b, e'⟩ | ⟨cells', cons', e', hs⟩ | ⟨_, _, -, e', -⟩
      · rw [e] at hq; cases hq
      · rw [e] at e'; cases e'
      · rw [e] at e'; cases e'
      · rw [e] at e'; cases e'; exact hs
      · rw [e] at e'; cases e'
    have hno : (letterDotsOf .backward rules).contains [sign] = false := by
      rw [List.contains_eq_mem, decide_eq_false_iff_not, C40_letter_cells]
      rintro ⟨q, hq, k, c, dots, cons', e', -, ht⟩
      exact h.unsigned sign (.inl rfl) q hq c dots.toText (by rw [e']; exact .inl ⟨_, _, _, rfl, rfl⟩) (by rw [← ht]; simp)
    refine backDots_all (f := fun | .capsletter dots _ => some dots | _ => none) ?_ ⟨r, hr, cells, by rw [e]⟩ hno
    intro q hq dots hd
    cases e : q.rule <;> rw [e] at hd <;> first | (cases hd; done) | skip
    cases hd
    exact sgn q hq _ _ e
  · refine backDots_none (fun | .begcapsword dots _ => some dots | _ => none) _ fun r hr => ?_
    have := (hk r hr).1
    cases e : r.rule <;> first | rfl | exact absurd e (this _ _)

/-- No cell is read as a digit and as a letter. -/
theorem letter_digits (h : ReadableBack sign num rules) {flags : Constraints} {text : Text}
    (hf : FlagsOf sys (TableCtx.compile sys.alpha rules) .backward rules [] text flags) :
    (∀ pos, flags.preferDigit pos = false) ∨ (mainTable ((TableCtx.compile sys.alpha rules).prim .backward) .backward
      (tableOps (TableCtx.compile sys.alpha rules) .backward rules)).digits = [] := by
  by_cases hnum : num = none
  · left
    intro pos
    cases e : flags.preferDigit pos with
    | false => rfl
    | true =>
      obtain ⟨ts, hr, x, c, y, rfl, -⟩ := (hf.digit rfl pos).1 e
      have c1 : (backNumbers sys (TableCtx.compile sys.alpha rules) rules).numsign = none := by
        refine backDots_none (fun | .numsign dots => some dots | _ => none) _ fun r hr => ?_
        have := (letter_kinds h.toLetterByLetter r hr).2.2.2.1 hnum
        cases e : r.rule <;> first | rfl | exact absurd e (this _)
      obtain ⟨-, ⟨a, b, rfl, -⟩, -⟩ := hr.right x _ y rfl
      obtain ⟨s, hs, -⟩ := hr.right a .sign (b ++ .digit c :: y) (by simp)
      rw [c1] at hs
      cases hs
  · right
    show (digitsOf _).reverse = []
    rw [List.reverse_eq_nil_iff]
    unfold digitsOf
    rw [List.filterMap_eq_nil_iff]
    intro op hop
    split
    · next cell character origin =>
      exfalso
      obtain ⟨r, hr, hop⟩ := mem_tableOps hop
      have no : ∀ k c (dots : Cells) cons, r.rule = .charDef k c dots cons → (k = .digit ∨ k = .litdigit) →
          .digitOverride cell character origin ∉ r.digitOps .backward (letterDotsOf .backward rules) c dots := by
        intro k c dots cons e hk hop
        unfold Anchored.digitOps at hop
        split at hop
        · next cell' =>
          split at hop
          · next hl =>
            rw [List.contains_eq_mem, decide_eq_true_iff, C40_letter_cells] at hl
            obtain ⟨q, hq, k', c', dots', cons', e', hk', ht⟩ := hl
            have : c = c' := h.unambiguous r hr q hq c _ c' _ (by rw [e]; exact .inl ⟨_, _, _, rfl, rfl⟩)
              (by rw [e']; exact .inl ⟨_, _, _, rfl, rfl⟩) (by rw [← ht]; exact List.prefix_refl _)
            subst this
            exact h.apart hnum r hr q hq c ⟨k, _, _, e, hk⟩ ⟨k', _, _, e', hk'⟩
          · cases hop
        · cases hop
      rcases hop with hop | hop
      · have := letter_first (ctx := TableCtx.compile sys.alpha rules) (d := .backward) h.toLetterByLetter hr _ hop
        unfold Anchored.firstOps at hop
        split at hop
        · cases List.mem_singleton.1 hop
        · cases List.mem_singleton.1 hop
        · cases hop
      · unfold Anchored.opsD at hop
        cases he : r.ops (TableCtx.compile sys.alpha rules) .backward (litdigitChars .backward rules) (letterDotsOf .backward rules) with
        | error e => rw [he] at hop; cases hop
        | ok ops =>
          rw [he] at hop
          have hop : _ ∈ ops := hop
          have sig : ∀ cells : Cells, .digitOverride cell character origin ∉ r.signOps .backward (letterDotsOf .backward rules) cells := by
            intro cells hop
            unfold Anchored.signOps at hop
            split at hop
            · cases List.mem_singleton.1 hop
            · cases hop
          rcases h.lines r hr with ⟨hq, -⟩ | ⟨k, c, cells, cons, e, hk⟩ | ⟨c, b, e⟩ | ⟨cells, cons, e, hs⟩ | ⟨n, cells, hn, e, hs⟩
          · unfold Anchored.ops at he
            generalize hrr : r.rule = rule at he hq
            cases rule <;> first
              | (cases hq; done)
              | (cases he; exact absurd hop List.not_mem_nil)
              | (cases he; cases List.mem_singleton.mp hop)
          · unfold Anchored.ops at he
            rw [e] at he
            cases k
            case hyphen => cases he; cases hop
            case litdigit =>
              cases he
              rcases List.mem_cons.mp hop with hop | hop
              · cases hop
              · exact no _ _ _ _ e (.inr rfl) hop
            case digit =>
              cases he
              rcases List.mem_append.mp hop with hop | hop
              · split at hop
                · cases hop
                · cases List.mem_singleton.mp hop
              · exact no _ _ _ _ e (.inl rfl) hop
            all_goals (cases he; cases List.mem_singleton.mp hop)
          · unfold Anchored.ops at he
            rw [e] at he
            simp only at he
            split at he
            · cases he; cases List.mem_singleton.mp hop
            · cases he; cases hop
          · unfold Anchored.ops at he
            rw [e] at he
            cases he
            exact sig _ hop
          · unfold Anchored.ops at he
            rw [e] at he
            cases he
            exact sig _ hop
    · rfl

/-- The flags of backward translation. -/
theorem letter_back_flags (h : SignsApart sign num rules) {flags : Constraints} {text : Text}
    (hf : FlagsOf sys (TableCtx.compile sys.alpha rules) .backward rules [] text flags) (pos : Nat) :
    flags.uppercase pos = false ∧
    (flags.titlecase pos = true ↔ ∃ a b, text = a ++ sign :: b ∧ b ≠ [] ∧ pos = a.length + 1) := by
  obtain ⟨h1, h2⟩ := letter_backCaps (sys := sys) h
  refine ⟨?_, (hf.title rfl pos).trans (afterSign_iff h1 h2 text pos)⟩
  cases e : flags.uppercase pos with
  | false => rfl
  | true =>
    obtain ⟨ts, hr, x, ls, closed, y, rfl, -⟩ := (hf.upper rfl pos).1 e
    exact absurd h2 (hr.right x _ y rfl).1

/-! ## Reading back -/

theorem choice' {α β : Type} {P : α → β → Prop} (h : ∀ a, ∃ b, P a b) : ∃ f : α → β, ∀ a, P a (f a) :=
  ⟨fun a => Classical.choose (h a), fun a => Classical.choose_spec (h a)⟩

/-- What is written for characters, some of them with a sign for numbers. -/
def signedOut (sign : Char) (upper : Char → Bool) (code : Char → Text) (x : Char × Text) : Text :=
  x.2 ++ ((if upper x.1 then [sign] else []) ++ code x.1)

/-- How a text is read back, provided every character is read where it stands. -/
theorem read_chunks (hm : MainStage sys (TableCtx.compile sys.alpha rules) .backward rules p) (h : SignsApart sign num rules)
    (cs : Case) (xs : List (Char × Text)) (hnum : ∀ x ∈ xs, ∀ s ∈ x.2, num = some s) (code : Char → Text)
    (hcode : ∀ x ∈ xs, Spelt rules x.1 (code x.1)) (upper : Char → Bool)
    (hcells : ∀ cell : Cell, cs.lower cell.toUnicode = [cell.toUnicode])
    (hletters : ∀ r ∈ rules, ∀ cell : Cell, ¬ r.rule.Raises cell.toUnicode)
    (hdigits : ∀ r ∈ rules, ∀ cell : Cell, ¬ r.rule.IsDigit cell.toUnicode)
    (hdig : ∀ flags, FlagsOf sys (TableCtx.compile sys.alpha rules) .backward rules [] (xs.flatMap (signedOut sign upper code)) flags →
      ∀ s, s = sign ∨ num = some s → ∀ place, flags.preferDigit place = false ∨
        (mainTable ((TableCtx.compile sys.alpha rules).prim .backward) .backward
          (tableOps (TableCtx.compile sys.alpha rules) .backward rules)).digits.find? (·.1 == s) = none)
    (g : Char → Char × Resolved)
    (hread : ∀ x ∈ xs, (g x.1).2.input = code x.1 ∧ (g x.1).2.output = [(g x.1).1] ∧ (g x.1).2.length = (code x.1).length ∧
      (if upper x.1 then cs.upperChar (g x.1).1 = [x.1] else (g x.1).1 = x.1))
    (hstep : ∀ flags, FlagsOf sys (TableCtx.compile sys.alpha rules) .backward rules [] (xs.flatMap (signedOut sign upper code)) flags →
      ∀ pre x post, xs = pre ++ x :: post → ∀ place,
        place = (pre.flatMap (signedOut sign upper code) ++ x.2 ++ (if upper x.1 then [sign] else [])).length →
        flags.useComp6 place = false → flags.dontContract place = false →
        ∀ rest prev, (∀ y ∈ code x.1 ++ rest, cs.lower y = [y]) →
          (mainTable ((TableCtx.compile sys.alpha rules).prim .backward) .backward
            (tableOps (TableCtx.compile sys.alpha rules) .backward rules)).step (listing p.table cs.lower) flags place
              (code x.1 ++ rest) prev = some ⟨.line, (g x.1).2⟩)
    (ts : List Resolved) (ht : p.Traces cs (xs.flatMap (signedOut sign upper code)) [] ts) :
    outputOf ts = xs.map (·.1) := by
  have hl := h.toLetterByLetter
  obtain ⟨flags, ps, made, hf, hps, hrun, htr⟩ := letter_view hm hl cs (xs.flatMap (signedOut sign upper code))
  obtain rfl := (htr ts).1 ht
  have hz := listing_sized (lower := cs.lower) hm.built.ok
  have hs := mainTable_single ((TableCtx.compile sys.alpha rules).prim .backward) .backward (tableOps (TableCtx.compile sys.alpha rules) .backward rules)
  have hn := noPatterns_letters (ctx := TableCtx.compile sys.alpha rules) (d := .backward) hl
  have hL := hm.built.faithful.lists cs.lower
  have n1 : (mainTable ((TableCtx.compile sys.alpha rules).prim .backward) .backward
    (tableOps (TableCtx.compile sys.alpha rules) .backward rules)).unbroken = [] := (letter_lists hl).1
  have hflag := letter_back_flags h hf
  have hdig := hdig flags hf
  have hstep := hstep flags hf
  -- every sign can be read
  have hsread : ∀ s, ∃ k, (s = sign ∨ num = some s) → ReadAs (mainTable ((TableCtx.compile sys.alpha rules).prim .backward) .backward
      (tableOps (TableCtx.compile sys.alpha rules) .backward rules)) [s] [] k := by
    intro s
    by_cases hs : s = sign ∨ num = some s
    · obtain ⟨k, hk⟩ := sign_reads (sys := sys) h hs
      exact ⟨k, fun _ => hk⟩
    · exact ⟨Resolved.new [] [] 0 .main none, fun h => absurd h hs⟩
  obtain ⟨ks, hks⟩ := choice' hsread
  -- the cells
  have hsigned : ∃ cell : Cell, sign = cell.toUnicode := by
    obtain ⟨r, hr, cells, cons, e⟩ := h.signed
    rcases h.lines r hr with ⟨hq, -⟩ | ⟨k, c, cells', cons', e', -⟩ | ⟨c, b, e'⟩ | ⟨cells', cons', e', hs⟩ | ⟨_, _, -, e', -⟩
    · rw [e] at hq; cases hq
    · rw [e] at e'; cases e'
    · rw [e] at e'; cases e'
    · have : sign ∈ cells'.toText := by rw [hs]; simp
      obtain ⟨cell, -, h⟩ := List.mem_map.1 this
      exact ⟨cell, h.symm⟩
    · rw [e] at e'; cases e'
  have hnumbered : ∀ s, num = some s → ∃ cell : Cell, s = cell.toUnicode := by
    intro s hs
    obtain ⟨r, hr, cells, e⟩ := h.numbered (by rw [hs]; simp)
    rcases h.lines r hr with ⟨hq, -⟩ | ⟨k, c, cells', cons', e', -⟩ | ⟨c, b, e'⟩ | ⟨cells', cons', e', -⟩ | ⟨n, cells', hn, e', ht⟩
    · rw [e] at hq; cases hq
    · rw [e] at e'; cases e'
    · rw [e] at e'; cases e'
    · rw [e] at e'; cases e'
    · rw [hs] at hn
      cases hn
      have : s ∈ cells'.toText := by rw [ht]; simp
      obtain ⟨cell, -, h⟩ := List.mem_map.1 this
      exact ⟨cell, h.symm⟩
  have hcellsOf : ∀ x ∈ xs, ∀ y ∈ code x.1, ∃ cell : Cell, y = cell.toUnicode := by
    intro x hx y hy
    obtain ⟨r, hr, b, hd⟩ := (hcode x hx).line
    obtain ⟨k, cells, cons, -, -, e⟩ := letter_defines hl hr hd
    rw [e] at hy
    obtain ⟨cell, -, h⟩ := List.mem_map.1 hy
    exact ⟨cell, h.symm⟩
  have hbraille : ∀ y ∈ xs.flatMap (signedOut sign upper code), ∃ cell : Cell, y = cell.toUnicode := by
    intro y hy
    obtain ⟨x, hx, hy⟩ := List.mem_flatMap.1 hy
    rcases List.mem_append.1 hy with hy | hy
    · exact hnumbered y (hnum x hx y hy)
    · rcases List.mem_append.1 hy with hy | hy
      · split at hy
        · rw [List.mem_singleton.1 hy]; exact hsigned
        · cases hy
      · exact hcellsOf x hx y hy
  have hne : ∀ x ∈ xs, code x.1 ≠ [] := by
    intro x hx
    obtain ⟨r, hr, b, hd⟩ := (hcode x hx).line
    exact h.nonempty r hr _ _ hd
  have hns : ∀ x ∈ xs, sign ∉ code x.1 := by
    intro x hx
    obtain ⟨r, hr, b, hd⟩ := (hcode x hx).line
    exact h.unsigned sign (.inl rfl) r hr _ _ hd
  have hnodigit : ∀ y ∈ xs.flatMap (signedOut sign upper code), ¬ ∃ r ∈ rules, r.rule.IsDigit y := by
    rintro y hy ⟨r, hr, hc⟩
    obtain ⟨cell, rfl⟩ := hbraille y hy
    exact hdigits r hr cell hc
  have hflag' := letter_flags hl hnodigit hf
  have hnosign : ∀ pos, outputOf (atPos pos ps) = [] := by
    intro pos
    refine letter_no_signs hm hl cs.lower _ hnodigit ?_ hps pos
    rintro y hy ⟨r, hr, hc⟩
    obtain ⟨cell, rfl⟩ := hbraille y hy
    exact hletters r hr cell hc
  generalize hT : mainTable ((TableCtx.compile sys.alpha rules).prim .backward) .backward
    (tableOps (TableCtx.compile sys.alpha rules) .backward rules) = T at *
  have ed : T.dir = .backward := by rw [← hT]; rfl
  let sgn : Char → Chunk := fun s => ⟨[s], ⟨.line, ks s⟩, []⟩
  let front : Char × Text → List Chunk := fun x => x.2.map sgn ++ (if upper x.1 then [sgn sign] else [])
  let piece : Char × Text → List Chunk := fun x => front x ++ [⟨code x.1, ⟨.line, (g x.1).2⟩, [x.1]⟩]
  have readSigns : ∀ l : Text, readOf (l.map sgn) = l ∧ wroteOf (l.map sgn) = [] := by
    intro l
    induction l with
    | nil => exact ⟨rfl, rfl⟩
    | cons s l ih =>
      rw [List.map_cons]
      exact ⟨congrArg (s :: ·) ih.1, ih.2⟩
  have frontRead : ∀ x, readOf (front x) = x.2 ++ (if upper x.1 then [sign] else []) := by
    intro x
    show readOf (_ ++ _) = _
    rw [readOf_append, (readSigns x.2).1]
    congr 1
    split <;> rfl
  have pieceRead : ∀ x, readOf (piece x) = signedOut sign upper code x := by
    intro x
    show readOf (front x ++ _) = _
    rw [readOf_append, frontRead]
    unfold signedOut
    rw [List.append_assoc]
    congr 2
    simp [readOf]
  have readPieces : ∀ l : List (Char × Text), readOf (l.flatMap piece) = l.flatMap (signedOut sign upper code) := by
    intro l
    induction l with
    | nil => rfl
    | cons x l ih => rw [List.flatMap_cons, readOf_append, pieceRead, ih, List.flatMap_cons]
  have wroteApp : ∀ a b : List Chunk, wroteOf (a ++ b) = wroteOf a ++ wroteOf b := fun a b => by simp [wroteOf]
  have writePieces : ∀ l : List (Char × Text), wroteOf (l.flatMap piece) = l.map (·.1) := by
    intro l
    induction l with
    | nil => rfl
    | cons x l ih =>
      rw [List.flatMap_cons, wroteApp, ih, List.map_cons]
      show wroteOf ((_ ++ _) ++ _) ++ _ = _
      rw [wroteApp, wroteApp, (readSigns x.2).2]
      cases upper x.1 <;> rfl
  -- where a piece stands
  have at' : ∀ a u b, xs.flatMap piece = a ++ u :: b → ∃ pre x post, xs = pre ++ x :: post ∧
      ((∃ s, (s = sign ∨ num = some s) ∧ u = sgn s) ∨
       (u = ⟨code x.1, ⟨.line, (g x.1).2⟩, [x.1]⟩ ∧ a = pre.flatMap piece ++ front x)) := by
    intro a u b e
    obtain ⟨pre, x, post, y, z, e1, e2, e3, -⟩ := flatMap_split e
    refine ⟨pre, x, post, e1, ?_⟩
    have hx : x ∈ xs := by rw [e1]; simp
    have e2 : front x ++ [⟨code x.1, ⟨.line, (g x.1).2⟩, [x.1]⟩] = y ++ u :: z := e2
    rcases List.append_eq_append_iff.1 e2 with ⟨m, hm1, hm2⟩ | ⟨m, hm1, hm2⟩
    · cases m with
      | nil =>
        injection hm2 with hm2 _
        refine .inr ⟨hm2.symm, ?_⟩
        rw [e3, hm1, List.append_nil]
      | cons w m => injection hm2 with _ hm2; simp at hm2
    · cases m with
      | nil =>
        injection hm2 with hm2 _
        refine .inr ⟨hm2, ?_⟩
        rw [e3, hm1, List.append_nil]
      | cons w m =>
        injection hm2 with hm2 _
        left
        have : u ∈ front x := by rw [hm1, hm2]; simp
        rcases List.mem_append.1 this with hu | hu
        · obtain ⟨s, hs, rfl⟩ := List.mem_map.1 hu
          exact ⟨s, .inr (hnum x hx s hs), rfl⟩
        · split at hu
          · exact ⟨sign, .inl rfl, List.mem_singleton.1 hu⟩
          · cases hu
  have fits : ∀ u ∈ xs.flatMap piece, 0 < u.made.item.length ∧ u.made.item.input = u.read := by
    intro u hu
    obtain ⟨a, b, e⟩ := List.append_of_mem hu
    obtain ⟨pre, x, post, e1, ⟨s, hs, rfl⟩ | ⟨rfl, -⟩⟩ := at' a u b e
    · obtain ⟨s1, s2, s3, -⟩ := hks s hs
      exact ⟨by show 0 < (ks s).length; rw [s3]; exact Nat.one_pos, s1⟩
    · have hx : x ∈ xs := by rw [e1]; simp
      obtain ⟨g1, g2, g3, -⟩ := hread x hx
      exact ⟨by show 0 < (g x.1).2.length; rw [g3]; exact List.length_pos_iff.2 (hne x hx), g1⟩
  have hr2 : T.Run (listing p.table cs.lower) cs.lower flags (readOf (xs.flatMap piece)) ((xs.flatMap piece).map (·.made)) := by
    refine run_chunks hn hz hs fits ?_
    intro a u b e prev
    have hlow : ∀ y ∈ u.read ++ readOf b, cs.lower y = [y] := by
      intro y hy
      obtain ⟨cell, rfl⟩ := hbraille y (by
        rw [← readPieces, e, readOf_append]
        exact List.mem_append_right _ hy)
      exact hcells cell
    obtain ⟨pre, x, post, e1, ⟨s, hs, rfl⟩ | ⟨rfl, ea⟩⟩ := at' a u b e
    · obtain ⟨s1, s2, s3, s4, s5⟩ := hks s hs
      refine step_only hL n1 ?_ (hflag' _).1 (hflag' _).2 (s4 _ _) prev (s5 _ _ _ hlow)
      refine (hdig s hs _).imp id fun hd y hy => ?_
      have hy : some s = some y := hy
      cases hy
      exact hd
    · exact hstep pre x post e1 _ (by rw [ea, readOf_append, frontRead, readPieces, List.append_assoc]) (hflag' _).1 (hflag' _).2 _ prev hlow
  rw [readPieces] at hr2
  rw [hrun.unique hr2, trace_chunks cs _ fits, writePieces]
  · intro a u b e
    rw [hnosign, List.nil_append]
    unfold MainTable.shown
    have hb : xs.flatMap (signedOut sign upper code) = readOf a ++ (u.read ++ readOf b) := by
      rw [← readPieces, e, readOf_append]; rfl
    obtain ⟨pre, x, post, e1, ⟨s, hs, rfl⟩ | ⟨rfl, ea⟩⟩ := at' a u b e
    · obtain ⟨s1, s2, -⟩ := hks s hs
      rw [if_neg (by rw [ed]; simp), (hflag _).1, if_neg (by simp)]
      split
      · show (ks s).output.head?.elim [] cs.upperChar ++ (ks s).output.tail = []
        rw [s2]; rfl
      · exact s2
    · have hx : x ∈ xs := by rw [e1]; simp
      obtain ⟨g1, g2, -, g6⟩ := hread x hx
      rw [if_neg (by rw [ed]; simp), (hflag _).1, if_neg (by simp)]
      have er : readOf a = readOf (pre.flatMap piece) ++ x.2 ++ (if upper x.1 then [sign] else []) := by
        rw [ea, readOf_append, frontRead, List.append_assoc]
      cases hu : upper x.1 with
      | true =>
        rw [hu, if_pos rfl] at er g6
        rw [if_pos]
        · show (g x.1).2.output.head?.elim [] cs.upperChar ++ (g x.1).2.output.tail = [x.1]
          rw [g2]
          simpa using g6
        · refine (hflag _).2.2 ⟨readOf (pre.flatMap piece) ++ x.2, code x.1 ++ readOf b, ?_, ?_, ?_⟩
          · rw [hb, er]
            simp
          · simp [hne x hx]
          · rw [er, List.length_append]
            rfl
      | false =>
        rw [hu, if_neg (by simp)] at er g6
        rw [List.append_nil] at er
        rw [if_neg]
        · show (g x.1).2.output = [x.1]
          rw [g2, g6]
        · intro ht
          obtain ⟨a', b', ht, -, hlen⟩ := (hflag _).2.1 ht
          rw [hb] at ht
          have : readOf a = a' ++ [sign] := by
            have ht : readOf a ++ (code x.1 ++ readOf b) = (a' ++ [sign]) ++ b' := by rw [ht]; simp
            exact (List.append_inj ht (by rw [hlen]; simp)).1
          rw [er] at this
          rcases List.eq_nil_or_concat x.2 with h2 | ⟨ns, n, h2⟩
          · rw [h2, List.append_nil] at this
            rcases List.eq_nil_or_concat pre with rfl | ⟨pre', x', rfl⟩
            · simp [readOf] at this
            · rw [List.concat_eq_append] at this e1
              rw [readPieces, List.flatMap_append, List.flatMap_singleton] at this
              unfold signedOut at this
              rw [← List.append_assoc, ← List.append_assoc] at this
              have hx' : x' ∈ xs := by rw [e1]; simp
              have h1 := congrArg List.getLast? this
              rw [List.getLast?_append, List.getLast?_concat, List.getLast?_eq_some_getLast (hne x' hx')] at h1
              simp only [Option.some_or] at h1
              injection h1 with h1
              exact hns x' hx' (by rw [← h1]; exact List.getLast_mem _)
          · rw [List.concat_eq_append] at h2
            rw [h2, ← List.append_assoc] at this
            have := (List.append_inj' this rfl).2
            injection this with this _
            exact h.distinct (by rw [← this]; exact hnum x hx n (by rw [h2]; simp))
  · exact hnosign _

/-- **C87**, main stage, backward: the braille of a text, with signs for numbers anywhere before characters, is read back as the
text. -/
theorem C87_main_backward (hm : MainStage sys (TableCtx.compile sys.alpha rules) .backward rules p) (h : ReadableBack sign num rules)
    (cs : Case) (xs : List (Char × Text)) (hnum : ∀ x ∈ xs, ∀ s ∈ x.2, num = some s) (code : Char → Text)
    (hcode : ∀ x ∈ xs, Spelt rules x.1 (code x.1)) (upper : Char → Bool)
    (hupper : ∀ x ∈ xs, upper x.1 = true ↔ ∃ r ∈ rules, r.rule.Raises x.1)
    (hsmall : ∀ x ∈ xs, upper x.1 = true → ∀ low, SmallFor rules x.1 low → cs.upperChar low = [x.1])
    (hcells : ∀ cell : Cell, cs.lower cell.toUnicode = [cell.toUnicode])
    (hletters : ∀ r ∈ rules, ∀ cell : Cell, ¬ r.rule.Raises cell.toUnicode)
    (hdigits : ∀ r ∈ rules, ∀ cell : Cell, ¬ r.rule.IsDigit cell.toUnicode)
    (ts : List Resolved) (ht : p.Traces cs (xs.flatMap (signedOut sign upper code)) [] ts) :
    outputOf ts = xs.map (·.1) := by
  have hl := h.toLetterByLetter
  -- every character can be read
  have hread : ∀ c, ∃ x : Char × Resolved, c ∈ xs.map (·.1) → ReadAs (mainTable ((TableCtx.compile sys.alpha rules).prim .backward) .backward
      (tableOps (TableCtx.compile sys.alpha rules) .backward rules)) (code c) [x.1] x.2 ∧
      (if upper c then cs.upperChar x.1 = [c] else x.1 = c) := by
    intro c
    by_cases hc : c ∈ xs.map (·.1)
    · obtain ⟨x, hx, rfl⟩ := List.mem_map.1 hc
      have hsp := hcode x hx
      have hupx := hupper x hx
      have hsmx := hsmall x hx
      generalize x.1 = c at *
      cases hu : upper c with
      | true =>
        obtain ⟨r, hr, low, hd⟩ := hsp.line
        obtain ⟨k, hk⟩ := letter_reads (sys := sys) h hr hd
        exact ⟨(low, k), fun _ => ⟨hk, by rw [if_pos rfl]; exact hsmx hu low ⟨_, hsp, r, hr, hd⟩⟩⟩
      | false =>
        have : ∃ r ∈ rules, r.rule.Defines c (code c) := by
          generalize code c = w at hsp
          cases hsp with
          | direct hr hd => exact ⟨_, hr, hd⟩
          | @derived r _ name _ b _ hr e _ _ =>
            exfalso
            rcases h.lines r hr with ⟨hq, -⟩ | ⟨_, _, _, _, e', -⟩ | ⟨c', b', e'⟩ | ⟨_, _, e', -⟩ | ⟨_, _, -, e', -⟩
            · rw [e] at hq; cases hq
            · rw [e] at e'; cases e'
            · rw [e] at e'; cases e'
              have := hupx.2 ⟨r, hr, by rw [e]; exact .base⟩
              rw [hu] at this; cases this
            · rw [e] at e'; cases e'
            · rw [e] at e'; cases e'
        obtain ⟨r, hr, hd⟩ := this
        obtain ⟨k, hk⟩ := letter_reads (sys := sys) h hr hd
        exact ⟨(c, k), fun _ => ⟨hk, by rw [if_neg (by simp)]⟩⟩
    · exact ⟨(c, Resolved.new [] [] 0 .main none), fun h => absurd h hc⟩
  obtain ⟨g, hg⟩ := choice' hread
  refine read_chunks hm h.toSignsApart cs xs hnum code hcode upper hcells hletters hdigits ?_ g ?_ ?_ ts ht
  · intro flags hf s hs place
    exact (letter_digits h hf).imp (· place) fun e => by rw [e]; rfl
  · intro x hx
    obtain ⟨⟨g1, g2, g3, -⟩, g6⟩ := hg x.1 (List.mem_map.2 ⟨x, hx, rfl⟩)
    exact ⟨g1, g2, g3, g6⟩
  · intro flags hf pre x post e place _ hcomp hdont rest prev hlow
    have hx : x ∈ xs := by rw [e]; simp
    obtain ⟨⟨-, -, -, g4, g5⟩, -⟩ := hg x.1 (List.mem_map.2 ⟨x, hx, rfl⟩)
    exact step_only (hm.built.faithful.lists cs.lower) (letter_lists hl).1 ((letter_digits h hf).imp (· place) fun e y _ => by rw [e]; rfl)
      hcomp hdont (g4 _ _) prev (g5 _ _ _ hlow)

/-- The signs for numbers, one by one. -/
def leadAt (num : Option Char) (digit : Char → Bool) (text : Text) (x : Char × Nat) : Text :=
  if digit x.1 && !(match x.2 with | 0 => false | i + 1 => (text[i]?).any digit) then num.toList else []

/-- What is written for a text, character by character with the signs for numbers. -/
theorem spelledOut_signed (sign : Char) (num : Option Char) (upper digit : Char → Bool) (code : Char → Text) (text : Text) :
    spelledOut sign num upper digit code false text =
      (text.zipIdx.map fun x => (x.1, leadAt num digit text x)).flatMap (signedOut sign upper code) := by
  rw [← spelledOut_at, List.flatMap_map]
  congr 1
  funext x
  unfold wroteAt signedOut leadAt
  rw [List.append_assoc]
  rfl

/-! ## The round trip -/

/-- **C87.** What a table for uncontracted braille writes for a text is read back as that text, capitals and digits included. -/
theorem C87_round_trip (sys : Sys) (rules : List Anchored) (sign : Char) (num : Option Char) (hr : ReadableBack sign num rules)
    (steps steps' : List Transform) (hf : Pipeline.Compiles sys rules .forward steps)
    (hb : Pipeline.Compiles sys rules .backward steps') (cs : Case)
    (hcells : ∀ cell : Cell, cs.lower cell.toUnicode = [cell.toUnicode])
    (hletters : ∀ r ∈ rules, ∀ cell : Cell, ¬ r.rule.Raises cell.toUnicode)
    (hdigits : ∀ r ∈ rules, ∀ cell : Cell, ¬ r.rule.IsDigit cell.toUnicode) (text : Text)
    (hdef : ∀ c ∈ text, ∃ dots, Spelt rules c dots)
    (hcase : ∀ c ∈ text, (∃ r ∈ rules, r.rule.Raises c) → ∀ low, SmallFor rules c low → cs.upperChar low = [c])
    (braille : Text) (h : Pipeline.Translates cs [] text steps braille) (back : Text)
    (h' : Pipeline.Translates cs [] braille steps' back) : back = text := by
  obtain ⟨code, hcode⟩ := choice' (P := fun c dots => c ∈ text → Spelt rules c dots) fun c => by
    by_cases hc : c ∈ text
    · obtain ⟨dots, hd⟩ := hdef c hc
      exact ⟨dots, fun _ => hd⟩
    · exact ⟨[], fun h => absurd h hc⟩
  obtain ⟨upper, hupper⟩ := choice' (P := fun c b => b = true ↔ ∃ r ∈ rules, r.rule.Raises c) fun c => by
    by_cases hc : ∃ r ∈ rules, r.rule.Raises c
    · exact ⟨true, by simp [hc]⟩
    · exact ⟨false, by simp [hc]⟩
  obtain ⟨digit, hdigit⟩ := choice' (P := fun c b => b = true ↔ ∃ r ∈ rules, r.rule.IsDigit c) fun c => by
    by_cases hc : ∃ r ∈ rules, r.rule.IsDigit c
    · exact ⟨true, by simp [hc]⟩
    · exact ⟨false, by simp [hc]⟩
  have e := C86_written sys rules sign num hr.toLetterByLetter steps hf cs text code hcode upper (fun c _ => hupper c) digit
    (fun c _ => hdigit c) braille h
  obtain ⟨p, rfl, hp⟩ := letter_steps hr.toLetterByLetter hb
  obtain ⟨mid, ⟨ts, ht, rfl⟩, rfl⟩ := h'
  have ht : p.Traces cs braille [] ts := ht
  rw [e, spelledOut_signed] at ht
  have hmem : ∀ x ∈ text.zipIdx.map (fun x => (x.1, leadAt num digit text x)), x.1 ∈ text := by
    intro x hx
    obtain ⟨y, hy, rfl⟩ := List.mem_map.1 hx
    exact List.mem_of_getElem? (List.mem_zipIdx_iff_getElem?.1 hy)
  have := C87_main_backward hp hr cs _ (fun x hx s hs => ?_) code (fun x hx => hcode x.1 (hmem x hx)) upper (fun x _ => hupper x.1)
    (fun x hx hu => hcase x.1 (hmem x hx) ((hupper x.1).1 hu)) hcells hletters hdigits ts ht
  · rw [this, List.map_map]
    exact List.zipIdx_map_fst ..
  · obtain ⟨y, hy, rfl⟩ := List.mem_map.1 hx
    have hs : s ∈ leadAt num digit text y := hs
    unfold leadAt at hs
    generalize (digit y.1 && _) = b at hs
    cases b with
    | true => exact Option.mem_toList.1 hs
    | false => cases hs

/-- **C87** for table texts. -/
theorem C87_source (sys : Sys) (cs : Case) (hcells : ∀ cell : Cell, cs.lower cell.toUnicode = [cell.toUnicode])
    (table : Text) (rules : List (Rule × Loc)) (hp : parseTable table none = .ok rules) (sign : Char) (num : Option Char)
    (hr : ReadableBack sign num (anchor rules)) (hletters : ∀ r ∈ anchor rules, ∀ cell : Cell, ¬ r.rule.Raises cell.toUnicode)
    (hdigits : ∀ r ∈ anchor rules, ∀ cell : Cell, ¬ r.rule.IsDigit cell.toUnicode)
    (text : Text) (hdef : ∀ c ∈ text, ∃ dots, Spelt (anchor rules) c dots)
    (hcase : ∀ c ∈ text, (∃ r ∈ anchor rules, r.rule.Raises c) → ∀ low, SmallFor (anchor rules) c low → cs.upperChar low = [c])
    (braille back : Text) (h : SourceTranslates sys cs table .forward [] text braille)
    (h' : SourceTranslates sys cs table .backward [] braille back) : back = text := by
  have key : ∀ {d steps}, translatorFromSource sys table d = .ok steps → Pipeline.Compiles sys (anchor rules) d steps := by
    intro d steps h
    unfold translatorFromSource at h
    rw [hp] at h
    simp only [fromTableSource] at h
    split at h
    · cases h
    · split at h
      · cases h
      · next e => cases h; exact compile_compiles e
  obtain ⟨steps, e, ht⟩ := h
  obtain ⟨steps', e', ht'⟩ := h'
  exact C87_round_trip sys _ sign num hr steps steps' (key e) (key e') cs hcells hletters hdigits text hdef hcase braille ht back ht'

/-- **C85**, main stage, backward: what such a table writes for a text is read back as the text. -/
theorem C85_main_backward (hm : MainStage sys (TableCtx.compile sys.alpha rules) .backward rules p) (h : ReadableBack sign none rules)
    (cs : Case) (text : Text) (code : Char → Text) (hcode : ∀ c ∈ text, Spelt rules c (code c)) (upper : Char → Bool)
    (hupper : ∀ c ∈ text, upper c = true ↔ ∃ r ∈ rules, r.rule.Raises c)
    (hsmall : ∀ c ∈ text, upper c = true → ∀ low, SmallFor rules c low → cs.upperChar low = [c])
    (hcells : ∀ cell : Cell, cs.lower cell.toUnicode = [cell.toUnicode])
    (hletters : ∀ r ∈ rules, ∀ cell : Cell, ¬ r.rule.Raises cell.toUnicode)
    (ts : List Resolved) (ht : p.Traces cs (text.flatMap fun c => (if upper c then [sign] else []) ++ code c) [] ts) :
    outputOf ts = text := by
  have hmem : ∀ x ∈ text.map (fun c => (c, ([] : Text))), x.1 ∈ text ∧ x.2 = [] := by
    intro x hx
    obtain ⟨c, hc, rfl⟩ := List.mem_map.1 hx
    exact ⟨hc, rfl⟩
  have e : (text.flatMap fun c => (if upper c then [sign] else []) ++ code c) =
      (text.map fun c => (c, ([] : Text))).flatMap (signedOut sign upper code) := by
    rw [List.flatMap_map]
    rfl
  rw [e] at ht
  rw [C87_main_backward hm h cs _ (fun x hx s hs => (by rw [(hmem x hx).2] at hs; cases hs)) code (fun x hx => hcode _ (hmem x hx).1)
    upper (fun x hx => hupper _ (hmem x hx).1) (fun x hx => hsmall _ (hmem x hx).1) hcells hletters
    (fun r hr cell hd => letter_no_digits h.toLetterByLetter _ ⟨r, hr, hd⟩) ts ht, List.map_map]
  exact List.map_id text

/-- **C85.** What a table for uncontracted braille writes for a text is read back as that text, capitals included. -/
theorem C85_round_trip (sys : Sys) (rules : List Anchored) (sign : Char) (hr : ReadableBack sign none rules)
    (steps steps' : List Transform) (hf : Pipeline.Compiles sys rules .forward steps)
    (hb : Pipeline.Compiles sys rules .backward steps') (cs : Case)
    (hcells : ∀ cell : Cell, cs.lower cell.toUnicode = [cell.toUnicode])
    (hletters : ∀ r ∈ rules, ∀ cell : Cell, ¬ r.rule.Raises cell.toUnicode) (text : Text)
    (hdef : ∀ c ∈ text, ∃ dots, Spelt rules c dots)
    (hcase : ∀ c ∈ text, (∃ r ∈ rules, r.rule.Raises c) → ∀ low, SmallFor rules c low → cs.upperChar low = [c])
    (braille : Text) (h : Pipeline.Translates cs [] text steps braille) (back : Text)
    (h' : Pipeline.Translates cs [] braille steps' back) : back = text :=
  C87_round_trip sys rules sign none hr steps steps' hf hb cs hcells hletters
    (fun r hr' cell hd => letter_no_digits hr.toLetterByLetter _ ⟨r, hr', hd⟩) text hdef hcase braille h back h'

/-- **C85** for table texts. -/
theorem C85_source (sys : Sys) (cs : Case) (hcells : ∀ cell : Cell, cs.lower cell.toUnicode = [cell.toUnicode])
    (table : Text) (rules : List (Rule × Loc)) (hp : parseTable table none = .ok rules) (sign : Char)
    (hr : ReadableBack sign none (anchor rules)) (hletters : ∀ r ∈ anchor rules, ∀ cell : Cell, ¬ r.rule.Raises cell.toUnicode)
    (text : Text) (hdef : ∀ c ∈ text, ∃ dots, Spelt (anchor rules) c dots)
    (hcase : ∀ c ∈ text, (∃ r ∈ anchor rules, r.rule.Raises c) → ∀ low, SmallFor (anchor rules) c low → cs.upperChar low = [c])
    (braille back : Text) (h : SourceTranslates sys cs table .forward [] text braille)
    (h' : SourceTranslates sys cs table .backward [] braille back) : back = text :=
  C87_source sys cs hcells table rules hp sign none hr hletters
    (fun r hr' cell hd => letter_no_digits hr.toLetterByLetter _ ⟨r, hr', hd⟩) text hdef hcase braille back h h'

/-! ## An example -/

def Rule.defines? : Rule → Option (Char × Text)
  | .charDef _ c cells _ | .decpoint c cells => some (c, cells.toText)
  | _ => none

theorem defines?_iff {r : Rule} {c : Char} {dots : Text} (h : r.Defines c dots) : r.defines? = some (c, dots) := by
  rcases h with ⟨k, cells, cons, rfl, rfl⟩ | ⟨cells, rfl, rfl⟩ <;> rfl

theorem defines?_sound {r : Rule} {c : Char} {dots : Text} (h : r.defines? = some (c, dots)) : r.Defines c dots := by
  unfold Rule.defines? at h
  split at h
  · cases h; exact .inl ⟨_, _, _, rfl, rfl⟩
  · cases h; exact .inr ⟨_, rfl, rfl⟩
  · cases h

/-- The definitions of a table. -/
def defsOf (rules : List Anchored) : List (Char × Text) := rules.filterMap (·.rule.defines?)

/-- The characters of a table and their braille. -/
def speltOf (rules : List Anchored) : List (Char × Text) :=
  defsOf rules ++ rules.flatMap fun r => match r.rule with
    | .base _ c b => ((defsOf rules).filter (·.1 == b)).map fun x => (c, x.2)
    | _ => []

theorem mem_defsOf {r : Anchored} (hr : r ∈ rules) {c : Char} {dots : Text} (h : r.rule.Defines c dots) : (c, dots) ∈ defsOf rules :=
  List.mem_filterMap.2 ⟨r, hr, defines?_iff h⟩

theorem mem_speltOf {c : Char} {dots : Text} (h : Spelt rules c dots) : (c, dots) ∈ speltOf rules := by
  cases h with
  | direct hr hd => exact List.mem_append_left _ (mem_defsOf hr hd)
  | @derived r q name _ b _ hr e hq hd =>
    refine List.mem_append_right _ (List.mem_flatMap.2 ⟨r, hr, ?_⟩)
    rw [e]
    exact List.mem_map.2 ⟨(b, dots), List.mem_filter.2 ⟨mem_defsOf hq hd, by simp⟩, rfl⟩

def Rule.letterLine (sign : Char) (num : Option Char) : Rule → Bool
  | .charDef k _ _ _ => k != .litdigit || num.isSome
  | .base name _ _ => name == "uppercase".toList
  | .capsletter cells _ => cells.toText == [sign]
  | .numsign cells => num.any fun n => cells.toText == [n]
  | .numericmodechars _ => num.isNone
  | r => r.Quiet && r.fills.all fun name => name != "uppercase".toList && name != "letter".toList

/-- Is this a table for uncontracted braille? -/
def checkSpelling (sign : Char) (num : Option Char) (rules : List Anchored) : Bool :=
  rules.all (fun r => r.rule.letterLine sign num && r.rule.isDirection .forward && r.rule.isDirection .backward) &&
  rules.any (fun r => match r.rule with | .capsletter _ _ => true | _ => false) &&
  (num.isNone || rules.any (fun r => match r.rule with | .numsign _ => true | _ => false)) &&
  (speltOf rules).all (fun x => (speltOf rules).all fun y => x.1 != y.1 || x.2 == y.2) &&
  rules.all (fun r => match r.rule with
    | .base _ _ b => (defsOf rules).any (·.1 == b)
    | _ => true)

theorem checkSpelling_sound {num : Option Char} (h : checkSpelling sign num rules = true) : LetterByLetter sign num rules := by
  simp only [checkSpelling, Bool.and_eq_true] at h
  obtain ⟨⟨⟨⟨h1, h2⟩, h6⟩, h3⟩, h4⟩ := h
  simp only [List.all_eq_true, List.any_eq_true, Bool.and_eq_true] at h1 h2 h3 h4
  constructor
  · intro r hr
    have := (h1 r hr).1.1
    unfold Rule.letterLine at this
    split at this
    · next k c cells cons e =>
      refine .inr (.inl ⟨k, c, cells, cons, e, fun hn => ?_⟩)
      rw [hn] at this
      simpa using this
    · next name c b e =>
      have : name = "uppercase".toList := eq_of_beq this
      exact .inr (.inr (.inl ⟨c, b, by rw [e, this]⟩))
    · next cells cons e => exact .inr (.inr (.inr (.inl ⟨cells, cons, e, eq_of_beq this⟩)))
    · next cells e =>
      cases num with
      | none => cases this
      | some n => exact .inr (.inr (.inr (.inr ⟨n, cells, rfl, e, eq_of_beq this⟩)))
    · next cs e =>
      refine .inl ⟨by rw [e]; rfl, fun name hn => (by rw [e] at hn; cases hn), fun hn => ?_⟩
      cases num with
      | none => exact absurd rfl hn
      | some n => cases this
    · next hne =>
      rw [Bool.and_eq_true] at this
      refine .inl ⟨this.1, fun name hn => ?_, fun _ cs e => hne cs e⟩
      have := this.2
      rw [hn] at this
      simp only [Option.all_some, Bool.and_eq_true, bne_iff_ne] at this
      exact this
  · intro r hr d
    cases d
    · exact (isDirection_iff _ _).1 (h1 r hr).1.2
    · exact (isDirection_iff _ _).1 (h1 r hr).2
  · obtain ⟨r, hr, h⟩ := h2
    split at h
    · next cells cons e => exact ⟨r, hr, cells, cons, e⟩
    · cases h
  · intro hn
    rw [Bool.or_eq_true] at h6
    rcases h6 with h6 | h6
    · cases num with
      | none => exact absurd rfl hn
      | some n => cases h6
    · obtain ⟨r, hr, h⟩ := List.any_eq_true.1 h6
      split at h
      · next cells e => exact ⟨r, hr, cells, e⟩
      · cases h
  · intro c dots dots' hs hs'
    have := h3 _ (mem_speltOf hs) _ (mem_speltOf hs')
    simpa using this
  · intro r hr name c b e
    have := h4 r hr
    rw [e] at this
    obtain ⟨x, hx, hb⟩ := List.any_eq_true.1 this
    obtain ⟨q, hq, hd⟩ := List.mem_filterMap.1 hx
    refine ⟨q, hq, x.2, ?_⟩
    rw [← eq_of_beq hb]
    exact defines?_sound hd

/-- Is this a table for uncontracted braille that can be read back? -/
def checkLetters (sign : Char) (num : Option Char) (rules : List Anchored) : Bool :=
  checkSpelling sign num rules &&
  (List.range rules.length).all (fun i => match (rules[i]?).map Anchored.rule with
    | some (Rule.base _ _ b) => (defsOf (rules.take i)).any (·.1 == b)
    | _ => true) &&
  num != some sign && (num.isNone || rules.all fun r => match r.rule with
    | .charDef k c _ _ => !(k == .digit || k == .litdigit) || rules.all fun q => match q.rule with
      | .charDef k' c' _ _ => !(k' == .letter || k' == .lowercase || k' == .uppercase) || c != c'
      | _ => true
    | _ => true) &&
  (defsOf rules).all (fun x => x.2 != [] && !x.2.contains sign && num.toList.all (fun n => !x.2.contains n) && (defsOf rules).all fun y => !x.2.isPrefixOf y.2 || x.1 == y.1)

theorem checkLetters_sound (h : checkLetters sign num rules = true) : ReadableBack sign num rules := by
  simp only [checkLetters, Bool.and_eq_true] at h
  obtain ⟨⟨⟨⟨h1, h4⟩, h6⟩, h7⟩, h5⟩ := h
  simp only [List.all_eq_true, Bool.and_eq_true] at h4 h5
  refine { toSignsApart := { toLetterByLetter := checkSpelling_sound h1, nonempty := ?_, unsigned := ?_, distinct := ?_ }, unambiguous := ?_, apart := ?_, above := ?_ }
  · intro r hr c dots hd
    have := (h5 _ (mem_defsOf hr hd)).1.1.1
    simpa using this
  · intro s hs r hr c dots hd
    rcases hs with rfl | hs
    · have := (h5 _ (mem_defsOf hr hd)).1.1.2
      simpa using this
    · have := (h5 _ (mem_defsOf hr hd)).1.2 s (by rw [hs]; simp)
      simpa using this
  · simpa using h6
  · intro r hr r' hr' c dots c' dots' hd hd' hp
    have := (h5 _ (mem_defsOf hr hd)).2 _ (mem_defsOf hr' hd')
    rw [Bool.or_eq_true, Bool.not_eq_true'] at this
    rcases this with this | this
    · rw [← List.isPrefixOf_iff_prefix] at hp
      rw [hp] at this; cases this
    · exact eq_of_beq this
  · rintro hn r hr r' hr' c ⟨k, cells, cons, e, hk⟩ ⟨k', cells', cons', e', hk'⟩
    rw [Bool.or_eq_true] at h7
    rcases h7 with h7 | h7
    · cases num with
      | none => exact hn rfl
      | some n => cases h7
    · have := List.all_eq_true.1 h7 r hr
      rw [e] at this
      simp only [Bool.or_eq_true, Bool.not_eq_true'] at this
      rcases this with this | this
      · rcases hk with rfl | rfl <;> cases this
      · have := List.all_eq_true.1 this r' hr'
        rw [e'] at this
        simp only [Bool.or_eq_true, Bool.not_eq_true'] at this
        rcases this with this | this
        · rcases hk' with rfl | rfl | rfl <;> cases this
        · simp at this
  · intro pre r post e name c b hr
    have := h4 pre.length (List.mem_range.2 (by rw [e]; simp))
    have hi : (rules[pre.length]?).map Anchored.rule = some (.base name c b) := by
      rw [e, List.getElem?_append_right (Nat.le_refl _), Nat.sub_self]
      show some r.rule = _
      rw [hr]
    rw [hi] at this
    obtain ⟨x, hx, hb⟩ := List.any_eq_true.1 this
    rw [e, List.take_left' rfl] at hx
    obtain ⟨q, hq, hd⟩ := List.mem_filterMap.1 hx
    refine ⟨q, hq, x.2, ?_⟩
    rw [← eq_of_beq hb]
    exact defines?_sound hd

/-- The characters that the lines make upper-case letters. -/
def raisedOf (rules : List Anchored) : Text := rules.filterMap fun r => match r.rule with
  | .charDef .uppercase c _ _ => some c
  | .base _ c _ => some c
  | _ => none

theorem mem_raisedOf {r : Anchored} (hr : r ∈ rules) {c : Char} (h : r.rule.Raises c) : c ∈ raisedOf rules := by
  refine List.mem_filterMap.2 ⟨r, hr, ?_⟩
  generalize r.rule = rule at h
  cases h <;> rfl

def letterTable : String :=
  "space \\s 0\nhyphen - 36\npunctuation . 256\nlowercase a 1\nlowercase b 12\nlowercase c 14\nletter d 4-5\n" ++
  "base uppercase A a\nbase uppercase B b\nbase uppercase C c\nuppercase E 2346\ncapsletter 6\n"

def letterRules : List Anchored := anchor ((parseTable letterTable.toList none).toOption.getD [])

theorem letterTable_readable : ReadableBack '⠠' none letterRules := checkLetters_sound (by decide +kernel)

/-- Non-vacuity of C85: the table of the example, what it writes for a text, and what is read back. -/
example : SourceTranslates demoSys asciiCase letterTable.toList .forward [] "Abc-CAd. BEd".toList "⠠⠁⠃⠉⠤⠠⠉⠠⠁⠈⠐⠲⠀⠠⠃⠠⠮⠈⠐".toList ∧
    SourceTranslates demoSys asciiCase letterTable.toList .backward [] "⠠⠁⠃⠉⠤⠠⠉⠠⠁⠈⠐⠲⠀⠠⠃⠠⠮⠈⠐".toList "Abc-CAd. BEd".toList :=
  ⟨runSource_sound (fuel := 60) (by decide +kernel), runSource_sound (fuel := 60) (by decide +kernel)⟩

theorem letterTable_rules : (parseTable letterTable.toList none).toOption.isSome = true := by decide +kernel

/-- The theorem applies to the table of the example, and to every text in its characters. -/
example (text braille back : Text) (ht : ∀ c ∈ text, c ∈ " -.abcdABCE".toList)
    (h : SourceTranslates demoSys asciiCase letterTable.toList .forward [] text braille)
    (h' : SourceTranslates demoSys asciiCase letterTable.toList .backward [] braille back) : back = text := by
  cases e : parseTable letterTable.toList none with
  | error x => have := letterTable_rules; rw [e] at this; cases this
  | ok rules =>
    have hr : anchor rules = letterRules := by unfold letterRules; rw [e]; rfl
    refine C85_source demoSys asciiCase asciiCase_cells _ rules e '⠠' (hr ▸ letterTable_readable) ?_ text ?_ ?_ braille back h h'
    · rw [hr]
      intro r hm cell hc
      have key : (raisedOf letterRules).all (fun c => decide (c.toNat < 0x2800)) = true := by decide +kernel
      have := List.all_eq_true.1 key _ (mem_raisedOf hm hc)
      rw [toNat_toUnicode] at this
      have this := of_decide_eq_true this
      have hrange := C31_range cell
      cases e : cell.any Dot.isVirtual with
      | false => have := (hrange.1 e).1; omega
      | true => have := (hrange.2 e).1; omega
    · rw [hr]
      intro c hc
      have key : " -.abcdABCE".toList.all (fun c => letterRules.any fun r => match r.rule with
        | .charDef _ x cells _ => x == c
        | .base _ x b => x == c && letterRules.any fun q => match q.rule with | .charDef _ y _ _ => y == b | _ => false
        | _ => false) = true := by decide +kernel
      obtain ⟨r, hm, h⟩ := List.any_eq_true.1 (List.all_eq_true.1 key c (ht c hc))
      split at h
      · next k x cells cons e =>
        rw [← eq_of_beq h]
        exact ⟨_, .direct hm (by rw [e]; exact .inl ⟨_, _, _, rfl, rfl⟩)⟩
      · next name x b e =>
        rw [Bool.and_eq_true] at h
        obtain ⟨q, hq, h2⟩ := List.any_eq_true.1 h.2
        rw [← eq_of_beq h.1]
        split at h2
        · next e' =>
          rw [← eq_of_beq h2] at e
          exact ⟨_, .derived hm e hq (by rw [e']; exact .inl ⟨_, _, _, rfl, rfl⟩)⟩
        · cases h2
      · cases h
    · rw [hr]
      rintro c - ⟨r, hm, hc⟩ low ⟨dots, hs, q, hq, hd⟩
      have key : (raisedOf letterRules).all (fun c => (speltOf letterRules).all fun x => x.1 != c ||
        (defsOf letterRules).all fun y => y.2 != x.2 || asciiCase.upperChar y.1 == [c]) = true := by decide +kernel
      have := List.all_eq_true.1 (List.all_eq_true.1 key _ (mem_raisedOf hm hc)) _ (mem_speltOf hs)
      simp only [bne_self_eq_false, Bool.false_or, List.all_eq_true] at this
      have := this _ (mem_defsOf hq hd)
      simpa using this

/-! ## What goes wrong with other tables -/

/-- If one of the cells of a character is that of the sign, the letter after it is read as a capital. -/
theorem C85_sign_inside_wrong :
    let table := "sign @ 4-6\nlowercase a 1\nbase uppercase A a\ncapsletter 6\n".toList
    SourceTranslates demoSys asciiCase table .forward [] "@a".toList "⠈⠠⠁".toList ∧
      SourceTranslates demoSys asciiCase table .backward [] "⠈⠠⠁".toList "@A".toList :=
  ⟨runSource_sound (fuel := 60) (by decide +kernel), runSource_sound (fuel := 60) (by decide +kernel)⟩

/-- If the capital stands above its character in the table, a small letter is read as a capital. -/
theorem C85_order_wrong :
    let table := "base uppercase A a\nlowercase a 1\ncapsletter 6\n".toList
    SourceTranslates demoSys asciiCase table .forward [] "a".toList "⠁".toList ∧
      SourceTranslates demoSys asciiCase table .backward [] "⠁".toList "A".toList :=
  ⟨runSource_sound (fuel := 60) (by decide +kernel), runSource_sound (fuel := 60) (by decide +kernel)⟩

end Louis
