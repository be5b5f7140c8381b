import Verif.Props.ParseTable

/-!
# C33 and C34: include files

The specification of an expansion is textual inclusion, `ExpandsTo`: the rules of the file in order, where the line that
includes another table is replaced by the expansion of that table, and the line that includes a hyphenation dictionary
refers to the dictionary that was found.
-/

namespace Louis

/-- `out` is `rules` with every include replaced by what `Incl` relates to the included name. -/
inductive Inlined (fs : Files) (Incl : Text → List (Rule × Loc) → Prop) : List (Rule × Loc) → List (Rule × Loc) → Prop
  | done : Inlined fs Incl [] []
  | rule (r : Rule) (loc : Loc) (rest out : List (Rule × Loc)) (h : ∀ file, r ≠ .incl file)
      (more : Inlined fs Incl rest out) : Inlined fs Incl ((r, loc) :: rest) ((r, loc) :: out)
  | dictionary (file path : Text) (loc : Loc) (rest out : List (Rule × Loc)) (hd : isDic file = true)
      (hf : fs.find file = some path) (more : Inlined fs Incl rest out) :
      Inlined fs Incl ((.incl file, loc) :: rest) ((.includeHyphenation path, loc) :: out)
  | table (file : Text) (loc : Loc) (rest inner out : List (Rule × Loc)) (hd : isDic file = false)
      (hi : Incl file inner) (more : Inlined fs Incl rest out) :
      Inlined fs Incl ((.incl file, loc) :: rest) (inner ++ out)

/-- Textual inclusion: the file named `file` expands to `out`, with at most `n` files open at a time. -/
def ExpandsTo (fs : Files) : Nat → Text → List (Rule × Loc) → Prop
  | 0, _, _ => False
  | n + 1, file, out => ∃ path rules, fs.find file = some path ∧ (fs.canon path).isSome = true ∧
      tableFile fs path = .ok rules ∧ Inlined fs (ExpandsTo fs n) rules out

/-- Names of the same file have the same contents. -/
def Files.Consistent (fs : Files) : Prop :=
  ∀ p q c, fs.canon p = some c → fs.canon q = some c → fs.read p = fs.read q

/-! ## Facts about textual inclusion -/

theorem Inlined.mono {fs : Files} {I J : Text → List (Rule × Loc) → Prop} (h : ∀ f o, I f o → J f o) {rules out}
    (hi : Inlined fs I rules out) : Inlined fs J rules out := by
  induction hi with
  | done => exact .done
  | rule r loc rest out hne _ ih => exact .rule r loc rest out hne ih
  | dictionary file path loc rest out hd hf _ ih => exact .dictionary file path loc rest out hd hf ih
  | table file loc rest inner out hd hi _ ih => exact .table file loc rest inner out hd (h _ _ hi) ih

theorem ExpandsTo.succ {fs : Files} : ∀ {n : Nat} {file : Text} {out : List (Rule × Loc)},
    ExpandsTo fs n file out → ExpandsTo fs (n + 1) file out := by
  intro n
  induction n with
  | zero => intro file out h; exact h.elim
  | succ n ih =>
    rintro file out ⟨path, rules, h1, h2, h3, h4⟩
    exact ⟨path, rules, h1, h2, h3, h4.mono fun f o hf => ih hf⟩

theorem ExpandsTo.mono {fs : Files} {n m : Nat} (hnm : n ≤ m) {file : Text} {out : List (Rule × Loc)}
    (h : ExpandsTo fs n file out) : ExpandsTo fs m file out := by
  induction hnm with
  | refl => exact h
  | step _ ih => exact ih.succ

theorem Inlined.unique {fs : Files} {I : Text → List (Rule × Loc) → Prop} (h : ∀ f o o', I f o → I f o' → o = o')
    {rules out out'} (hi : Inlined fs I rules out) (hj : Inlined fs I rules out') : out = out' := by
  induction hi generalizing out' with
  | done => cases hj; rfl
  | rule r loc rest out hne _ ih =>
    cases hj with
    | rule _ _ _ out2 _ more => rw [ih more]
    | dictionary file => exact absurd rfl (hne file)
    | table file => exact absurd rfl (hne file)
  | dictionary file path loc rest out hd hf _ ih =>
    cases hj with
    | rule _ _ _ out2 hne more => exact absurd rfl (hne file)
    | dictionary _ path2 _ _ out2 _ hf2 more => rw [hf] at hf2; cases hf2; rw [ih more]
    | table _ _ _ _ _ hd2 => rw [hd] at hd2; cases hd2
  | table file loc rest inner out hd hi _ ih =>
    cases hj with
    | rule _ _ _ out2 hne more => exact absurd rfl (hne file)
    | dictionary _ path2 _ _ out2 hd2 => rw [hd] at hd2; cases hd2
    | table _ _ _ inner2 out2 _ hi2 more => rw [h _ _ _ hi hi2, ih more]

theorem ExpandsTo.unique_at {fs : Files} : ∀ {n : Nat} {file : Text} {out out' : List (Rule × Loc)},
    ExpandsTo fs n file out → ExpandsTo fs n file out' → out = out' := by
  intro n
  induction n with
  | zero => intro file out out' h; exact h.elim
  | succ n ih =>
    rintro file out out' ⟨path, rules, h1, h2, h3, h4⟩ ⟨path', rules', h1', h2', h3', h4'⟩
    rw [h1] at h1'; cases h1'
    rw [h3] at h3'; cases h3'
    exact Inlined.unique (I := ExpandsTo fs n) (fun f o o' h h' => ih h h') h4 h4'

/-- C33: a file has at most one expansion. -/
theorem C33_expansion_unique {fs : Files} {n m : Nat} {file : Text} {out out' : List (Rule × Loc)}
    (h : ExpandsTo fs n file out) (h' : ExpandsTo fs m file out') : out = out' :=
  (h.mono (Nat.le_max_left n m)).unique_at (h'.mono (Nat.le_max_right n m))

/-- The expansion of a list of rules only depends on the rules, not on their locations. -/
theorem Inlined.relocate {fs : Files} {I : Text → List (Rule × Loc) → Prop} {rules out}
    (hi : Inlined fs I rules out) : ∀ {rules' : List (Rule × Loc)}, rules'.map (·.1) = rules.map (·.1) →
      ∃ out', Inlined fs I rules' out' := by
  induction hi with
  | done => intro rules' h; simp only [List.map_nil, List.map_eq_nil_iff] at h; subst h; exact ⟨_, .done⟩
  | rule r loc rest out hne _ ih =>
    intro rules' h
    cases rules' with
    | nil => cases h
    | cons a rules' =>
      simp only [List.map_cons, List.cons.injEq] at h
      obtain ⟨out', ho⟩ := ih h.2
      obtain ⟨r', loc'⟩ := a
      simp only at h
      rw [h.1]
      exact ⟨_, .rule r loc' rules' out' hne ho⟩
  | dictionary file path loc rest out hd hf _ ih =>
    intro rules' h
    cases rules' with
    | nil => cases h
    | cons a rules' =>
      simp only [List.map_cons, List.cons.injEq] at h
      obtain ⟨out', ho⟩ := ih h.2
      obtain ⟨r', loc'⟩ := a
      simp only at h
      rw [h.1]
      exact ⟨_, .dictionary file path loc' rules' out' hd hf ho⟩
  | table file loc rest inner out hd hin _ ih =>
    intro rules' h
    cases rules' with
    | nil => cases h
    | cons a rules' =>
      simp only [List.map_cons, List.cons.injEq] at h
      obtain ⟨out', ho⟩ := ih h.2
      obtain ⟨r', loc'⟩ := a
      simp only at h
      rw [h.1]
      exact ⟨_, .table file loc' rules' inner out' hd hin ho⟩

/-- The rules of a text do not depend on the path it is said to come from, only their locations do. -/
theorem parseTable_path {text : Text} {path path' : Option Text} {rules : List (Rule × Loc)}
    (h : parseTable text path = .ok rules) :
    ∃ rules', parseTable text path' = .ok rules' ∧ rules'.map (·.1) = rules.map (·.1) := by
  obtain ⟨hall, rfl⟩ := (C32_accepted_iff _ _ _).mp h
  refine ⟨_, (C32_accepted_iff _ _ _).mpr ⟨hall, rfl⟩, ?_⟩
  rw [List.map_filterMap, List.map_filterMap]
  congr 1
  funext nl
  cases parseLine nl.2 <;> rfl

theorem tableFile_ok_iff (fs : Files) (path : Text) (rules : List (Rule × Loc)) :
    tableFile fs path = .ok rules ↔ ∃ text, fs.read path = some text ∧ parseTable text (some path) = .ok rules := by
  simp only [tableFile]
  cases fs.read path with
  | none => simp
  | some text =>
    simp only [Option.some.injEq, exists_eq_left']
    cases parseTable text (some path) <;> simp

/-- With consistent names, two paths of the same file have the same rules. -/
theorem tableFile_same {fs : Files} (hc : fs.Consistent) {p q c : Text} (hp : fs.canon p = some c) (hq : fs.canon q = some c)
    {rules : List (Rule × Loc)} (h : tableFile fs p = .ok rules) :
    ∃ rules', tableFile fs q = .ok rules' ∧ rules'.map (·.1) = rules.map (·.1) := by
  obtain ⟨text, hr, ht⟩ := (tableFile_ok_iff _ _ _).mp h
  obtain ⟨rules', h1, h2⟩ := parseTable_path (path' := some q) ht
  exact ⟨rules', (tableFile_ok_iff _ _ _).mpr ⟨text, by rw [← hc p q c hp hq]; exact hr, h1⟩, h2⟩

/-! ## The algorithm against the specification -/

theorem concatOrErrors_cons_ok {ε α : Type} (r : Except (List ε) (List α)) (rs : List (Except (List ε) (List α)))
    (out : List α) : concatOrErrors (r :: rs) = .ok out ↔
      ∃ a b, r = .ok a ∧ concatOrErrors rs = .ok b ∧ out = a ++ b := by
  simp only [concatOrErrors, allOrErrors]
  cases r with
  | ok a =>
    cases h : allOrErrors rs with
    | ok as =>
      simp only [Except.ok.injEq, List.flatten_cons]
      constructor
      · rintro rfl; exact ⟨a, as.flatten, rfl, rfl, rfl⟩
      · rintro ⟨_, _, rfl, rfl, rfl⟩; rfl
    | error es => simp
  | error e =>
    cases h : allOrErrors rs <;> simp

/-- `expand_includes` does what `Inlined` says, if the expansion of the included tables does. -/
theorem expandIncludes_ok_iff (fs : Files) (expand : Text → Except (List TableErr) (List (Rule × Loc)))
    (rules out : List (Rule × Loc)) :
    expandIncludes fs expand rules = .ok out ↔ Inlined fs (fun f o => expand f = .ok o) rules out := by
  induction rules generalizing out with
  | nil =>
    simp only [expandIncludes, List.map_nil, concatOrErrors, allOrErrors, List.flatten_nil, Except.ok.injEq]
    constructor
    · rintro rfl; exact .done
    · intro h; cases h; rfl
  | cons r rules ih =>
    have : expandIncludes fs expand (r :: rules) =
        concatOrErrors (expandInclude fs expand r :: rules.map (expandInclude fs expand)) := rfl
    rw [this, concatOrErrors_cons_ok]
    have ih' : ∀ b, concatOrErrors (rules.map (expandInclude fs expand)) = .ok b ↔
      Inlined fs (fun f o => expand f = .ok o) rules b := ih
    obtain ⟨r, loc⟩ := r
    constructor
    · rintro ⟨a, b, ha, hb, rfl⟩
      have hb := (ih' b).mp hb
      by_cases hr : ∃ file, r = .incl file
      · obtain ⟨file, rfl⟩ := hr
        simp only [expandInclude] at ha
        by_cases hd : isDic file = true
        · rw [if_pos hd] at ha
          cases hf : fs.find file with
          | none => rw [hf] at ha; cases ha
          | some path => rw [hf] at ha; cases ha; exact .dictionary file path loc _ _ hd hf hb
        · rw [if_neg hd] at ha
          simp only [Bool.not_eq_true] at hd
          exact .table file loc _ _ _ hd ha hb
      · have hne : ∀ file, r ≠ .incl file := fun f e => hr ⟨f, e⟩
        have : expandInclude fs expand (r, loc) = .ok [(r, loc)] := by
          cases r <;> first | rfl | exact absurd rfl (hne _)
        rw [this] at ha
        cases ha
        exact .rule r loc _ _ hne hb
    · intro h
      cases h with
      | rule _ _ _ out hne more =>
        have : expandInclude fs expand (r, loc) = .ok [(r, loc)] := by
          cases r <;> first | rfl | exact absurd rfl (hne _)
        exact ⟨_, _, this, (ih' _).mpr more, rfl⟩
      | dictionary file path _ _ out hd hf more =>
        exact ⟨[(.includeHyphenation path, loc)], out, by simp [expandInclude, hd, hf], (ih' _).mpr more, rfl⟩
      | table file _ _ inner out hd hi more =>
        exact ⟨inner, out, by simp [expandInclude, hd, hi], (ih' _).mpr more, rfl⟩

theorem expandTable_sound (fs : Files) : ∀ (n : Nat) (chain : List Text) (file : Text) (out : List (Rule × Loc)),
    expandTable fs n chain file = .ok out → ExpandsTo fs n file out := by
  intro n
  induction n with
  | zero =>
    intro chain file out h
    simp only [expandTable, expandHead] at h
    split at h
    · cases h
    · split at h <;> cases h
  | succ n ih =>
    intro chain file out h
    simp only [expandTable, expandHead] at h
    split at h
    · cases h
    · rename_i path hf
      split at h
      · cases h
      · rename_i c hc
        split at h
        · cases h
        · split at h
          · cases h
          · rename_i rules hr
            rw [expandIncludes_ok_iff] at h
            exact ⟨path, rules, hf, by rw [hc]; rfl, hr, h.mono fun f o hfo => ih _ f o hfo⟩

/-- The file has no expansion with less than `m` files open at a time. -/
def Deep (fs : Files) (m : Nat) (c : Text) : Prop :=
  ∀ path rules out, fs.canon path = some c → tableFile fs path = .ok rules → ∀ k, k + 1 < m →
    ¬ Inlined fs (ExpandsTo fs k) rules out

theorem ExpandsTo.least {fs : Files} {file : Text} {out : List (Rule × Loc)} : ∀ {n : Nat}, ExpandsTo fs n file out →
    ∃ m, m ≤ n ∧ ExpandsTo fs m file out ∧ ∀ k, k < m → ∀ o, ¬ ExpandsTo fs k file o := by
  intro n
  induction n with
  | zero => intro h; exact h.elim
  | succ n ih =>
    intro h
    by_cases hn : ∃ o, ExpandsTo fs n file o
    · obtain ⟨o, ho⟩ := hn
      have : o = out := C33_expansion_unique ho h
      subst this
      obtain ⟨m, hm, hx⟩ := ih ho
      exact ⟨m, Nat.le_succ_of_le hm, hx⟩
    · exact ⟨n + 1, Nat.le_refl _, h, fun k hk o hko => hn ⟨o, hko.mono (Nat.lt_succ_iff.mp hk)⟩⟩

theorem expandTable_complete (fs : Files) (hcons : fs.Consistent) : ∀ (m N : Nat) (chain : List Text) (file : Text)
    (out : List (Rule × Loc)), ExpandsTo fs m file out → (∀ k, k < m → ∀ o, ¬ ExpandsTo fs k file o) → m ≤ N →
    (∀ c ∈ chain, Deep fs (m + 1) c) → expandTable fs N chain file = .ok out := by
  intro m
  induction m using Nat.strongRecOn with
  | ind m ih =>
    intro N chain file out hex hmin hmN hchain
    cases m with
    | zero => exact hex.elim
    | succ m =>
      cases N with
      | zero => omega
      | succ N =>
        obtain ⟨path, rules, hf, hc, hr, hin⟩ := hex
        obtain ⟨c, hc⟩ := Option.isSome_iff_exists.mp hc
        have hnotin : c ∉ chain := fun hm => hchain c hm path rules out hc hr m (by omega) hin
        simp only [expandTable, expandHead, hf, hc]
        rw [if_neg hnotin, hr]
        simp only
        rw [expandIncludes_ok_iff]
        have hdeep : Deep fs (m + 1) c := by
          intro path' rules' out' hc' hr' k hk hin'
          obtain ⟨rules2, hr2, he⟩ := tableFile_same hcons hc' hc hr'
          rw [hr] at hr2
          cases hr2
          obtain ⟨o, ho⟩ := hin'.relocate he
          exact hmin (k + 1) (by omega) o ⟨path, rules, hf, by rw [hc]; rfl, hr, ho⟩
        refine hin.mono ?_
        intro f o hfo
        obtain ⟨m', hm', hex', hmin'⟩ := hfo.least
        refine ih m' (by omega) N _ f o hex' hmin' (by omega) ?_
        intro d hd
        rcases List.mem_append.mp hd with hd | hd
        · intro path' rules' out' hc' hr' k hk
          exact hchain d hd path' rules' out' hc' hr' k (by omega)
        · simp only [List.mem_singleton] at hd
          subst hd
          intro path' rules' out' hc' hr' k hk
          exact hdeep path' rules' out' hc' hr' k (by omega)

/-- C33: expanding a table yields exactly its textual inclusion, if at most 64 files are open at a time; otherwise (a missing
or rejected file, a circular include, deeper nesting) it fails.  In particular, files included twice are expanded twice,
and the rules come in the order of textual inclusion. -/
theorem C33_expansion_is_textual_inclusion (fs : Files) (h : fs.Consistent) (file : Text) (out : List (Rule × Loc)) :
    tableExpanded fs file = .ok out ↔ ExpandsTo fs 64 file out := by
  constructor
  · exact expandTable_sound fs 64 [] file out
  · intro hex
    obtain ⟨m, hm, hx, hmin⟩ := hex.least
    exact expandTable_complete fs h m 64 [] file out hx hmin hm (by simp)

/-! ## Circular and deep includes -/

/-- The table at the canonical path `c` contains a line that includes the table at the canonical path `d`. -/
def Includes (fs : Files) (c d : Text) : Prop :=
  ∃ path rules file loc path', fs.canon path = some c ∧ tableFile fs path = .ok rules ∧ (.incl file, loc) ∈ rules ∧
    isDic file = false ∧ fs.find file = some path' ∧ fs.canon path' = some d

/-- A chain of includes, from the table at `c` on, each table including the next. -/
inductive IncludeChain (fs : Files) : Text → List Text → Prop
  | last (c : Text) : IncludeChain fs c [c]
  | cons (c d : Text) (rest : List Text) (h : Includes fs c d) (more : IncludeChain fs d rest) : IncludeChain fs c (c :: rest)

theorem Inlined.of_mem {fs : Files} {I : Text → List (Rule × Loc) → Prop} {rules out} (hi : Inlined fs I rules out)
    {file : Text} (hd : isDic file = false) {r : Rule} (hm : r ∈ rules.map (·.1)) (hr : r = .incl file) : ∃ o, I file o := by
  induction hi with
  | done => cases hm
  | rule r' loc rest out hne _ ih =>
    simp only [List.map_cons, List.mem_cons] at hm
    rcases hm with rfl | hm
    · exact absurd hr (hne file)
    · exact ih hm
  | dictionary file' path loc rest out hd' hf _ ih =>
    simp only [List.map_cons, List.mem_cons] at hm
    rcases hm with rfl | hm
    · cases hr; rw [hd] at hd'; cases hd'
    · exact ih hm
  | table file' loc rest inner out hd' hi _ ih =>
    simp only [List.map_cons, List.mem_cons] at hm
    rcases hm with rfl | hm
    · cases hr; exact ⟨_, hi⟩
    · exact ih hm

/-- An expansion needs as many open files as a chain of includes is long. -/
theorem ExpandsTo.chain_le {fs : Files} (hcons : fs.Consistent) {c : Text} {chain : List Text}
    (hch : IncludeChain fs c chain) : ∀ {n : Nat} {file path : Text} {out : List (Rule × Loc)},
    fs.find file = some path → fs.canon path = some c → ExpandsTo fs n file out → chain.length ≤ n := by
  induction hch with
  | last c =>
    intro n file path out hf hc h
    cases n with
    | zero => exact h.elim
    | succ n => simp
  | cons c d rest hinc _ ih =>
    intro n file path out hf hc h
    cases n with
    | zero => exact h.elim
    | succ n =>
      obtain ⟨path2, rules, hf2, _, hr, hin⟩ := h
      rw [hf] at hf2
      cases hf2
      obtain ⟨p, rules', file', loc, path', hp, hr', hm, hd, hf', hc'⟩ := hinc
      obtain ⟨rules2, hr2, he⟩ := tableFile_same hcons hp hc hr'
      rw [hr] at hr2
      cases hr2
      have hmem : Rule.incl file' ∈ rules.map (·.1) := by
        rw [he]
        exact List.mem_map.mpr ⟨_, hm, rfl⟩
      obtain ⟨o, ho⟩ := hin.of_mem hd hmem rfl
      have := ih hf' hc' ho
      simp only [List.length_cons]
      omega

/-- C33: a table from which a chain of includes with more than 64 tables starts is rejected. -/
theorem C33_deep_includes_rejected (fs : Files) (h : fs.Consistent) (file path c : Text) (chain : List Text)
    (hf : fs.find file = some path) (hc : fs.canon path = some c) (hch : IncludeChain fs c chain)
    (hlen : 64 < chain.length) : ∃ errors, tableExpanded fs file = .error errors := by
  cases hx : tableExpanded fs file with
  | error es => exact ⟨es, rfl⟩
  | ok out =>
    have := ((C33_expansion_is_textual_inclusion fs h file out).mp hx).chain_le h hch hf hc
    omega

theorem IncludeChain.append_aux {fs : Files} {c d : Text} {zs ys : List Text} (h1 : IncludeChain fs c zs)
    (h2 : IncludeChain fs d ys) : ∀ {xs : List Text}, zs = xs ++ [d] → IncludeChain fs c (xs ++ ys) := by
  induction h1 with
  | last c =>
    intro xs e
    cases xs with
    | nil => cases e; exact h2
    | cons x xs => cases xs <;> cases e
  | cons c e rest hinc more ih =>
    intro xs he
    cases xs with
    | nil =>
      simp only [List.nil_append, List.cons.injEq] at he
      rw [he.2] at more
      cases more
    | cons x xs =>
      simp only [List.cons_append, List.cons.injEq] at he
      rw [← he.1]
      exact .cons c e _ hinc (ih he.2)

theorem IncludeChain.append {fs : Files} {c d : Text} {xs ys : List Text} (h1 : IncludeChain fs c (xs ++ [d]))
    (h2 : IncludeChain fs d ys) : IncludeChain fs c (xs ++ ys) := h1.append_aux h2 rfl

/-- C33: a table from which a circular include can be reached is rejected (whatever names the tables are included by). -/
theorem C33_circular_includes_rejected (fs : Files) (h : fs.Consistent) (file path c d : Text) (before loop : List Text)
    (hf : fs.find file = some path) (hc : fs.canon path = some c) (hreach : IncludeChain fs c (before ++ [d]))
    (hloop : IncludeChain fs d (loop ++ [d])) (hne : loop ≠ []) : ∃ errors, tableExpanded fs file = .error errors := by
  have hlong : ∀ k, ∃ xs, k ≤ xs.length ∧ IncludeChain fs d (xs ++ [d]) := by
    intro k
    induction k with
    | zero => exact ⟨[], Nat.zero_le _, .last d⟩
    | succ k ih =>
      obtain ⟨xs, hx, hch⟩ := ih
      refine ⟨loop ++ xs, ?_, ?_⟩
      · have : 0 < loop.length := List.length_pos_iff.mpr hne
        simp only [List.length_append]; omega
      · rw [List.append_assoc]
        exact hloop.append hch
  obtain ⟨xs, hx, hch⟩ := hlong 64
  refine C33_deep_includes_rejected fs h file path c (before ++ (xs ++ [d])) hf hc (hreach.append hch) ?_
  simp only [List.length_append, List.length_cons, List.length_nil]
  omega

theorem IncludeChain.snoc {fs : Files} {c d e : Text} {xs : List Text} (h1 : IncludeChain fs c (xs ++ [d]))
    (h2 : Includes fs d e) : IncludeChain fs c (xs ++ [d] ++ [e]) := by
  have := h1.append (.cons d e [e] h2 (.last e))
  rw [List.append_assoc]
  exact this

theorem mem_concat_errors {ε α : Type} {rs : List (Except (List ε) (List α))} {es : List ε} {e : ε}
    (h : concatOrErrors rs = .error es) (he : e ∈ es) : ∃ r ∈ rs, ∃ es', r = .error es' ∧ e ∈ es' := by
  induction rs generalizing es with
  | nil => cases h
  | cons r rs ih =>
    simp only [concatOrErrors, allOrErrors] at h
    simp only [concatOrErrors] at ih
    cases r with
    | ok a =>
      cases hr : allOrErrors rs with
      | ok as => rw [hr] at h; cases h
      | error es2 =>
        rw [hr] at h ih
        cases h
        obtain ⟨r, hr1, hr2⟩ := ih rfl he
        exact ⟨r, by simp [hr1], hr2⟩
    | error e1 =>
      cases hr : allOrErrors rs with
      | ok as =>
        rw [hr] at h
        simp only [Except.error.injEq, List.flatten_cons, List.flatten_nil, List.append_nil] at h
        subst h
        exact ⟨_, by simp, _, rfl, he⟩
      | error es2 =>
        rw [hr] at h ih
        simp only [Except.error.injEq, List.flatten_cons] at h
        subst h
        rcases List.mem_append.mp he with he | he
        · exact ⟨_, by simp, _, rfl, he⟩
        · obtain ⟨r, hr1, hr2⟩ := ih rfl he
          exact ⟨r, by simp [hr1], hr2⟩

theorem circular_reported (fs : Files) : ∀ (n : Nat) (chain : List Text) (file : Text) (errors : List TableErr)
    (loop : List Text) (root : Text), expandTable fs n chain file = .error errors → TableErr.circular loop ∈ errors →
    (chain = [] ∨ ∀ path c, fs.find file = some path → fs.canon path = some c → IncludeChain fs root (chain ++ [c])) →
    (chain = [] → ∀ path, fs.find file = some path → fs.canon path = some root) →
    ∃ init c, loop = init ++ [c] ∧ c ∈ init ∧ IncludeChain fs root loop := by
  intro n
  induction n with
  | zero =>
    intro chain file errors loop root h hm _ _
    simp only [expandTable, expandHead] at h
    split at h
    · cases h; simp at hm
    · split at h <;> cases h <;> simp at hm
  | succ n ih =>
    intro chain file errors loop root h hm hchain hroot
    simp only [expandTable, expandHead] at h
    split at h
    · cases h; simp at hm
    · rename_i path hf
      split at h
      · cases h; simp at hm
      · rename_i c hc
        have hch : IncludeChain fs root (chain ++ [c]) := by
          by_cases h0 : chain = []
          · subst h0
            have := hroot rfl path hf
            rw [hc] at this
            rw [Option.some.inj this]
            exact .last root
          · exact (hchain.resolve_left h0) path c hf hc
        split at h
        · rename_i hin
          cases h
          simp only [List.mem_singleton, TableErr.circular.injEq] at hm
          subst hm
          exact ⟨chain, c, rfl, hin, hch⟩
        · split at h
          · rename_i es hes
            cases h
            simp only [tableFile] at hes
            split at hes
            · cases hes; simp at hm
            · split at hes
              · cases hes
              · cases hes; simp at hm
          · rename_i rules hr
            simp only [expandIncludes] at h
            obtain ⟨r, hrm, es', hre, hem⟩ := mem_concat_errors h hm
            obtain ⟨rule, hrule, rfl⟩ := List.mem_map.mp hrm
            obtain ⟨rule, loc⟩ := rule
            by_cases hinc : ∃ f, rule = .incl f
            · obtain ⟨f, rfl⟩ := hinc
              simp only [expandInclude] at hre
              by_cases hd : isDic f = true
              · rw [if_pos hd] at hre
                cases hff : fs.find f <;> rw [hff] at hre <;> cases hre
                simp at hem
              · rw [if_neg hd] at hre
                refine ih (chain ++ [c]) f es' loop root hre hem (.inr ?_) (by simp)
                intro path' c' hf' hc'
                refine hch.snoc ?_
                exact ⟨path, rules, f, loc, path', hc, hr, hrule, by simpa using hd, hf', hc'⟩
            · have : expandInclude fs (expandTable fs n (chain ++ [c])) (rule, loc) = .ok [(rule, loc)] := by
                cases rule <;> first | rfl | exact absurd ⟨_, rfl⟩ hinc
              rw [this] at hre
              cases hre

/-- C33: a reported circular include is one: a chain of tables from the first table on, each including the next, whose last
table occurs before. -/
theorem C33_reported_circle_is_one (fs : Files) (file path root : Text) (errors : List TableErr) (loop : List Text)
    (hf : fs.find file = some path) (hc : fs.canon path = some root) (h : tableExpanded fs file = .error errors)
    (hm : TableErr.circular loop ∈ errors) : ∃ init c, loop = init ++ [c] ∧ c ∈ init ∧ IncludeChain fs root loop :=
  circular_reported fs 64 [] file errors loop root h hm (.inl rfl) fun _ p hp => by
    rw [hf] at hp; cases hp; exact hc

/-- A file system in which the name is the path. -/
def plainFiles (files : List (Text × Text)) : Files where
  find f := if (files.find? (·.1 == f)).isSome then some f else none
  canon f := some f
  read f := (files.find? (·.1 == f)).map (·.2)

theorem plainFiles_consistent (files : List (Text × Text)) : (plainFiles files).Consistent := by
  intro p q c hp hq
  simp only [plainFiles, Option.some.injEq] at hp hq
  rw [hp, hq]

/-- A table that includes two tables which include the same third one (a diamond). -/
def diamondFiles : Files := plainFiles
  [("a".toList, "include b\nletter x 1\ninclude c\n".toList), ("b".toList, "include d\n".toList),
   ("c".toList, "include d\nletter y 2\n".toList), ("d".toList, "letter z 3\n".toList)]

/-- C33 is met by a concrete case: the table included twice through different branches is expanded twice, in place. -/
example : tableExpanded diamondFiles "a".toList =
    .ok [(.charDef .letter 'z' [[.d3]] RuleCons.none, ⟨some "d".toList, 1⟩),
      (.charDef .letter 'x' [[.d1]] RuleCons.none, ⟨some "a".toList, 2⟩),
      (.charDef .letter 'z' [[.d3]] RuleCons.none, ⟨some "d".toList, 1⟩),
      (.charDef .letter 'y' [[.d2]] RuleCons.none, ⟨some "c".toList, 2⟩)] := by decide +kernel

/-- … and two tables that include each other are rejected. -/
example : tableExpanded (plainFiles [("a".toList, "include b\n".toList), ("b".toList, "letter x 1\ninclude a\n".toList)])
    "a".toList = .error [.circular ["a".toList, "b".toList, "a".toList]] := by decide +kernel

/-! ## C34: tables held in memory -/

/-- C34: a table source with an include is rejected. -/
theorem C34_includes_rejected (sys : Sys) (text : Text) (d : Direction) (rules : List (Rule × Loc))
    (h : parseTable text none = .ok rules) (file : Text) (loc : Loc) (hm : (.incl file, loc) ∈ rules) :
    translatorFromSource sys text d = .error .includesNotSupportedInMemory := by
  simp only [translatorFromSource, h, fromTableSource]
  rw [if_pos]
  simp only [anchor, List.any_map, List.any_eq_true, Function.comp]
  obtain ⟨i, hi⟩ := List.getElem?_of_mem hm
  exact ⟨((.incl file, loc), i), List.mem_zipIdx_iff_getElem?.mpr hi, rfl⟩

/-- C34: in terms of the text: if some line parses to an include, no translator is created. -/
theorem C34_include_line_rejected (sys : Sys) (text : Text) (d : Direction) (line file : Text)
    (hl : line ∈ lines text) (hr : isRuleLine line = true) (hp : parseLine line = some (.incl file)) :
    ∃ e, translatorFromSource sys text d = .error e := by
  cases h : parseTable text none with
  | error es => exact ⟨.parse, by simp [translatorFromSource, h, fromTableSource]⟩
  | ok rules =>
    have := C32_rules_of_lines _ _ _ h
    have hm : some (Rule.incl file) ∈ rules.map (fun r => some r.1) := by
      rw [this]
      exact List.mem_map.mpr ⟨line, List.mem_filter.mpr ⟨hl, hr⟩, hp⟩
    obtain ⟨r, hr, he⟩ := List.mem_map.mp hm
    simp only [Option.some.injEq] at he
    exact ⟨_, C34_includes_rejected sys text d rules h file r.2 (by rw [← he]; exact hr)⟩

theorem Inlined.no_includes {fs : Files} {I : Text → List (Rule × Loc) → Prop} {rules : List (Rule × Loc)}
    (h : ∀ file loc, (.incl file, loc) ∉ rules) : Inlined fs I rules rules := by
  induction rules with
  | nil => exact .done
  | cons r rules ih =>
    exact .rule r.1 r.2 rules rules (fun file e => h file r.2 (by rw [← e]; simp))
      (ih fun file loc hm => h file loc (by simp [hm]))

theorem anchor_congr {rules rules' : List (Rule × Loc)} (h : rules.map (·.1) = rules'.map (·.1)) :
    anchor rules = anchor rules' := by
  have : ∀ (k : Nat) (l : List (Rule × Loc)),
      (l.zipIdx k).map (fun r => (⟨r.1.1, r.2⟩ : Anchored)) = ((l.map (·.1)).zipIdx k).map fun r => ⟨r.1, r.2⟩ := by
    intro k l
    induction l generalizing k with
    | nil => rfl
    | cons a l ih => simp only [List.zipIdx_cons, List.map_cons, ih]
  simp only [anchor, this, h]

/-- C34: without includes, a table source behaves like a file with the same contents: the same translator, or an error of
the same kind. -/
theorem C34_same_as_file (sys : Sys) (fs : Files) (file path c text : Text) (d : Direction)
    (hf : fs.find file = some path) (hc : fs.canon path = some c) (hr : fs.read path = some text)
    (hno : ∀ line ∈ lines text, ∀ f, parseLine line ≠ some (.incl f)) :
    translatorFromSource sys text d = translatorNew sys fs [file] d := by
  cases h : parseTable text (some path) with
  | error es =>
    have h2 : ∃ es', parseTable text none = .error es' := by
      cases h' : parseTable text none with
      | error es' => exact ⟨es', rfl⟩
      | ok rules =>
        obtain ⟨rules', he, _⟩ := parseTable_path (path' := some path) h'
        rw [h] at he; cases he
    obtain ⟨es', h2⟩ := h2
    have h3 : tableExpanded fs file = .error (es.map .parse) := by
      rw [tableExpanded, show maxIncludeDepth = 63 + 1 from rfl, expandTable]
      simp only [expandHead, hf, hc, tableFile, hr, h, List.not_mem_nil, if_false]
    simp [translatorFromSource, fromTableSource, h2, translatorNew, allTables, h3]
  | ok rules =>
    obtain ⟨rules', h2, he⟩ := parseTable_path (path' := none) h
    have hnone : ∀ {p : Option Text} {rs : List (Rule × Loc)}, parseTable text p = .ok rs →
        ∀ f loc, (.incl f, loc) ∉ rs := by
      intro p rs hp f loc hm
      have := C32_rules_of_lines _ _ _ hp
      have hm' : some (Rule.incl f) ∈ rs.map (fun r => some r.1) := List.mem_map.mpr ⟨_, hm, rfl⟩
      rw [this] at hm'
      obtain ⟨line, hl, hp⟩ := List.mem_map.mp hm'
      exact hno line (List.mem_filter.mp hl).1 f hp
    have h3 : tableExpanded fs file = .ok rules := by
      have : expandIncludes fs (expandTable fs 63 [c]) rules = .ok rules :=
        (expandIncludes_ok_iff _ _ _ _).mpr (Inlined.no_includes (hnone h))
      rw [tableExpanded, show maxIncludeDepth = 63 + 1 from rfl, expandTable]
      simp only [expandHead, hf, hc, tableFile, hr, h, List.not_mem_nil, if_false, List.nil_append, this]
    have hany : (anchor rules').any (fun r => match r.rule with | .incl _ => true | _ => false) = false := by
      rw [List.any_eq_false]
      intro r hm
      simp only [anchor, List.mem_map] at hm
      obtain ⟨a, ha, rfl⟩ := hm
      have hmem := List.mem_of_getElem? (List.mem_zipIdx_iff_getElem?.mp ha)
      cases hra : a.1.1 <;> simp only [hra, Bool.false_eq_true, not_false_eq_true]
      rename_i f
      exact absurd (by rw [← hra]; exact hmem) (hnone h2 f a.1.2)
    simp only [translatorFromSource, fromTableSource, h2, translatorNew, allTables, h3, List.append_nil]
    rw [← anchor_congr he, if_neg (by rw [Bool.not_eq_true]; exact hany)]
    cases Pipeline.compile sys (anchor rules') d <;> rfl

end Louis
