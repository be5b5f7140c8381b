import Verif.Spec.Table
import Verif.Lemmas.Exec
import Verif.Props.MainWrong

/-!
# C17: character definitions
-/

namespace Louis

/-- The definitions a rule makes in the first loop. -/
def directOf : Rule → List (Char × Text)
  | .charDef _ c cells _ => [(c, cells.toText)]
  | .decpoint c cells => [(c, cells.toText)]
  | _ => []

theorem directOf_iff (r : Rule) (c : Char) (dots : Text) : (c, dots) ∈ directOf r ↔ r.Defines c dots := by
  constructor
  · intro h
    cases r <;> simp only [directOf, List.mem_singleton, Prod.mk.injEq, List.not_mem_nil] at h
    · obtain ⟨rfl, rfl⟩ := h
      exact Or.inl ⟨_, _, _, rfl, rfl⟩
    · obtain ⟨rfl, rfl⟩ := h
      exact Or.inr ⟨_, rfl, rfl⟩
  · rintro (⟨k, cells, cons, rfl, rfl⟩ | ⟨cells, rfl, rfl⟩) <;> simp [directOf]

theorem define_defs (alpha : Char → Bool) (ctx : TableCtx) (r : Rule) : (ctx.define alpha r).defs = ctx.defs ++ directOf r := by
  cases r with
  | charDef k c cells cons => simp [TableCtx.define, directOf, CharDefs.insert]
  | decpoint c cells => simp [TableCtx.define, directOf, CharDefs.insert]
  | text k chars dots cons withs =>
    cases k <;> simp [TableCtx.define, directOf]
    split <;> rfl
  | _ => simp [TableCtx.define, directOf]

theorem foldl_define_defs (alpha : Char → Bool) : ∀ (rules : List Anchored) (ctx : TableCtx),
    (rules.foldl (fun ctx r => ctx.define alpha r.rule) ctx).defs = ctx.defs ++ rules.flatMap (fun r => directOf r.rule)
  | [], ctx => by simp
  | r :: rs, ctx => by
    rw [List.foldl_cons, foldl_define_defs alpha rs, define_defs]
    simp

/-- What a rule adds to the definitions in the second loop. -/
def deriveDefs (defs : CharDefs) : Rule → CharDefs
  | .base _ derived base => match defs.get base with
    | none => defs
    | some dots => defs.insert derived dots
  | _ => defs

theorem derive_defs (ctx : TableCtx) (r : Rule) : (ctx.derive r).defs = deriveDefs ctx.defs r := by
  cases r <;> simp only [TableCtx.derive, deriveDefs, TableCtx.addMembers]
  rename_i name derived base
  cases ctx.defs.get base <;> rfl

theorem foldl_derive_defs : ∀ (rules : List Anchored) (ctx : TableCtx),
    (rules.foldl (fun ctx r => ctx.derive r.rule) ctx).defs = rules.foldl (fun defs r => deriveDefs defs r.rule) ctx.defs
  | [], ctx => rfl
  | r :: rs, ctx => by
    rw [List.foldl_cons, foldl_derive_defs rs, derive_defs, List.foldl_cons]

theorem compile_defs (alpha : Char → Bool) (rules : List Anchored) : (TableCtx.compile alpha rules).defs =
    rules.foldl (fun defs r => deriveDefs defs r.rule) (rules.flatMap fun r => directOf r.rule) := by
  unfold TableCtx.compile
  rw [foldl_derive_defs, foldl_define_defs]
  simp

theorem get_append (a b : CharDefs) (c : Char) : CharDefs.get (a ++ b) c = (CharDefs.get a c).or (CharDefs.get b c) := by
  unfold CharDefs.get
  rw [List.find?_append]
  cases List.find? (fun x => x.1 == c) a <;> simp

theorem get_insert (a : CharDefs) (c x : Char) (dots : Text) :
    CharDefs.get (a.insert c dots) x = (CharDefs.get a x).or (if x = c then some dots else none) := by
  unfold CharDefs.insert
  rw [get_append]
  congr 1
  unfold CharDefs.get
  by_cases h : x = c
  · subst h; simp
  · simp [h]
    exact fun e => h e.symm

theorem deriveDefs_mono (defs : CharDefs) (r : Rule) (c : Char) (dots : Text) (h : CharDefs.get defs c = some dots) :
    CharDefs.get (deriveDefs defs r) c = some dots := by
  cases r <;> simp only [deriveDefs, h]
  split
  · exact h
  · rw [get_insert, h]; rfl

theorem foldl_deriveDefs_mono : ∀ (rules : List Anchored) (defs : CharDefs) (c : Char) (dots : Text),
    CharDefs.get defs c = some dots → CharDefs.get (rules.foldl (fun defs r => deriveDefs defs r.rule) defs) c = some dots
  | [], _, _, _, h => h
  | r :: rs, defs, c, dots, h => foldl_deriveDefs_mono rs _ c dots (deriveDefs_mono defs r.rule c dots h)

theorem get_none_of_not_mem (defs : CharDefs) (c : Char) (h : ∀ ds, (c, ds) ∉ defs) : CharDefs.get defs c = none := by
  unfold CharDefs.get
  rw [Option.map_eq_none_iff, List.find?_eq_none]
  rintro ⟨a, b⟩ hm
  simp only [beq_iff_eq]
  rintro rfl
  exact h b hm

theorem get_directs_none (rules : List Anchored) (c : Char) (h : ∀ q ∈ rules, ∀ ds, ¬ q.rule.Defines c ds) :
    CharDefs.get (rules.flatMap fun r => directOf r.rule) c = none := by
  apply get_none_of_not_mem
  intro ds hm
  obtain ⟨q, hq, hm⟩ := List.mem_flatMap.mp hm
  exact h q hq ds ((directOf_iff _ _ _).mp hm)

theorem get_directOf (r : Rule) (c : Char) (dots : Text) (h : r.Defines c dots) : CharDefs.get (directOf r) c = some dots := by
  rcases h with ⟨k, cells, cons, rfl, rfl⟩ | ⟨cells, rfl, rfl⟩ <;> simp [directOf, CharDefs.get]

/-- **C17.** The dots of a character are those of the first rule of the table that defines it, wherever in the table that
rule is, whatever rules come after it and whatever other rules come before it. -/
theorem C17_first_definition_wins (alpha : Char → Bool) (pre post : List Anchored) (r : Anchored) (c : Char) (dots : Text)
    (hr : r.rule.Defines c dots) (hpre : ∀ q ∈ pre, ∀ ds, ¬ q.rule.Defines c ds) :
    (TableCtx.compile alpha (pre ++ r :: post)).defs.get c = some dots := by
  rw [compile_defs]
  apply foldl_deriveDefs_mono
  rw [List.flatMap_append, List.flatMap_cons, get_append, get_append, get_directs_none pre c hpre, get_directOf _ _ _ hr]
  rfl

/-- **C17.** A character that no rule mentions as defined or derived has no dots. -/
theorem C17_undefined (alpha : Char → Bool) (rules : List Anchored) (c : Char)
    (hd : ∀ q ∈ rules, ∀ ds, ¬ q.rule.Defines c ds) (hb : ∀ q ∈ rules, ∀ name b, q.rule ≠ .base name c b) :
    (TableCtx.compile alpha rules).defs.get c = none := by
  rw [compile_defs]
  have : ∀ (rs : List Anchored) (defs : CharDefs), (∀ q ∈ rs, ∀ name b, q.rule ≠ .base name c b) →
      CharDefs.get defs c = none → CharDefs.get (rs.foldl (fun defs r => deriveDefs defs r.rule) defs) c = none := by
    intro rs
    induction rs with
    | nil => intro _ _ h; exact h
    | cons r rs ih =>
      intro defs hb h
      rw [List.foldl_cons]
      apply ih _ (fun q hq => hb q (List.mem_cons_of_mem _ hq))
      have hr := hb r (List.mem_cons_self ..)
      cases e : r.rule with
      | base name derived base =>
        simp only [deriveDefs]
        split
        · exact h
        · rw [get_insert, h]
          rw [if_neg]
          · rfl
          · rintro rfl; exact hr name base e
      | _ => exact h
  exact this rules _ hb (get_directs_none rules c hd)

/-- **C17.** A `base` rule at the end of a table gives its character the dots of its base character if it has no dots yet,
and changes nothing else. -/
theorem C17_base (alpha : Char → Bool) (rules : List Anchored) (id : Nat) (name : Text) (c b x : Char) :
    (TableCtx.compile alpha (rules ++ [⟨.base name c b, id⟩])).defs.get x =
      ((TableCtx.compile alpha rules).defs.get x).or
        (if x = c then (TableCtx.compile alpha rules).defs.get b else none) := by
  rw [compile_defs, compile_defs, List.flatMap_append, List.foldl_append]
  simp only [List.flatMap_cons, List.flatMap_nil, directOf, List.append_nil, List.foldl_cons, List.foldl_nil, deriveDefs]
  split
  · rename_i h
    rw [h]
    simp
  · rename_i dots h
    rw [get_insert, h]

/-- **C17.** Rules that neither define nor derive a character leave all definitions as they are, wherever they stand. -/
theorem C17_other_rules (alpha : Char → Bool) (pre post : List Anchored) (r : Anchored)
    (hd : ∀ c ds, ¬ r.rule.Defines c ds) (hb : ∀ name c b, r.rule ≠ .base name c b) :
    (TableCtx.compile alpha (pre ++ r :: post)).defs = (TableCtx.compile alpha (pre ++ post)).defs := by
  rw [compile_defs, compile_defs]
  have e1 : directOf r.rule = [] := by
    apply List.eq_nil_iff_forall_not_mem.mpr
    rintro ⟨c, ds⟩ hm
    exact hd c ds ((directOf_iff _ _ _).mp hm)
  have e2 : ∀ defs, deriveDefs defs r.rule = defs := by
    intro defs
    cases e : r.rule with
    | base name c b => exact absurd e (hb name c b)
    | _ => rfl
  simp [List.flatMap_append, List.flatMap_cons, List.foldl_append, e1, e2]

/-- **C17.** A direct definition added at the end of a table changes no direct definition: the dots of every character that
some rule of the table defines stay as they were. -/
theorem C17_later_rules (alpha : Char → Bool) (rules more : List Anchored) (c : Char) (dots : Text)
    (hr : ∃ q ∈ rules, ∃ ds, q.rule.Defines c ds) (h : (TableCtx.compile alpha rules).defs.get c = some dots) :
    (TableCtx.compile alpha (rules ++ more)).defs.get c = some dots := by
  have key : ∀ rs : List Anchored, (∃ q ∈ rs, ∃ ds, q.rule.Defines c ds) →
      ∃ pre r post ds, rs = pre ++ r :: post ∧ r.rule.Defines c ds ∧ ∀ q ∈ pre, ∀ ds, ¬ q.rule.Defines c ds := by
    intro rs
    induction rs with
    | nil => rintro ⟨q, hq, _⟩; cases hq
    | cons r rs ih =>
      intro hq
      by_cases hr : ∃ ds, r.rule.Defines c ds
      · obtain ⟨ds, hr⟩ := hr
        exact ⟨[], r, rs, ds, rfl, hr, by intro q hq; cases hq⟩
      · obtain ⟨q, hq, ds, hd⟩ := hq
        rcases List.mem_cons.mp hq with rfl | hq
        · exact absurd ⟨ds, hd⟩ hr
        · obtain ⟨pre, r', post, ds', rfl, h1, h2⟩ := ih ⟨q, hq, ds, hd⟩
          refine ⟨r :: pre, r', post, ds', rfl, h1, ?_⟩
          intro q hq
          rcases List.mem_cons.mp hq with rfl | hq
          · exact fun ds hd => hr ⟨ds, hd⟩
          · exact h2 q hq
  obtain ⟨pre, r, post, ds, rfl, h1, h2⟩ := key rules hr
  rw [C17_first_definition_wins alpha pre post r c ds h1 h2] at h
  injection h with h
  subst h
  rw [List.append_assoc, List.cons_append]
  exact C17_first_definition_wins alpha pre (post ++ more) r c ds h1 h2

/-! ## Implicit dots -/

/-- The dots of the characters of a text, one after the other. -/
inductive DotsOf (defs : CharDefs) : Text → Text → Prop
  | nil : DotsOf defs [] []
  | cons {c cs d ds} : defs.get c = some d → DotsOf defs cs ds → DotsOf defs (c :: cs) (d ++ ds)

/-- **C17.** The dots `=` stands for exist exactly when every character has dots, and are their concatenation. -/
theorem C17_implicit (defs : CharDefs) : ∀ (chars dots : Text), defs.resolve chars = .ok dots ↔ DotsOf defs chars dots
  | [], dots => by
    constructor
    · intro h; cases h; exact .nil
    · intro h; cases h; rfl
  | c :: cs, dots => by
    unfold CharDefs.resolve
    cases e : defs.get c with
    | none =>
      constructor
      · intro h; cases h
      · intro h
        cases h with | cons h _ => rw [e] at h; cases h
    | some d =>
      cases e' : defs.resolve cs with
      | error x =>
        constructor
        · intro h; cases h
        · intro h
          cases h with
          | cons h h' => rw [(C17_implicit defs cs _).mpr h'] at e'; cases e'
      | ok ds =>
        constructor
        · intro h
          cases h
          exact .cons e ((C17_implicit defs cs ds).mp e')
        · intro h
          cases h with
          | cons h h' =>
            rw [(C17_implicit defs cs _).mpr h'] at e'
            rw [h] at e
            cases e
            cases e'
            rfl

/-- **C17.** Otherwise the compilation fails and names the first character without dots. -/
theorem C17_implicit_error (defs : CharDefs) : ∀ (chars : Text) (e : CompileErr),
    defs.resolve chars = .error e ↔ ∃ a c b, chars = a ++ c :: b ∧ (∀ x ∈ a, (defs.get x).isSome) ∧ defs.get c = none ∧
      e = .implicitCharacterNotDefined c
  | [], e => by
    constructor
    · intro h; cases h
    · rintro ⟨a, c, b, h, _⟩; simp at h
  | c :: cs, e => by
    unfold CharDefs.resolve
    cases ec : defs.get c with
    | none =>
      constructor
      · intro h
        cases h
        exact ⟨[], c, cs, rfl, (by intro x hx; cases hx), ec, rfl⟩
      · rintro ⟨a, c', b, h, ha, hc, rfl⟩
        cases a with
        | nil => cases h; rfl
        | cons x a =>
          injection h with h1 h2
          subst h1
          have := ha c (List.mem_cons_self ..)
          rw [ec] at this
          cases this
    | some d =>
      have ih := C17_implicit_error defs cs
      constructor
      · intro h
        cases e' : defs.resolve cs with
        | ok ds => rw [e'] at h; cases h
        | error x =>
          rw [e'] at h
          cases h
          obtain ⟨a, c', b, rfl, ha, hc, he⟩ := (ih e).mp e'
          refine ⟨c :: a, c', b, rfl, ?_, hc, he⟩
          intro x hx
          rcases List.mem_cons.mp hx with rfl | hx
          · rw [ec]; rfl
          · exact ha x hx
      · rintro ⟨a, c', b, h, ha, hc, he⟩
        cases a with
        | nil =>
          cases h
          rw [ec] at hc
          cases hc
        | cons x a =>
          injection h with h1 h2
          subst h1
          rw [(ih e).mpr ⟨a, c', b, h2, fun x hx => ha x (List.mem_cons_of_mem _ hx), hc, he⟩]

/-! ## The exception: definitions by `base` -/

/-- `lowercase a 1`, `base uppercase A a`, `uppercase A 17` -/
def baseRules : List Anchored :=
  [⟨.charDef .lowercase 'a' [[.d1]] RuleCons.none, 0⟩, ⟨.base "uppercase".toList 'A' 'a', 1⟩,
    ⟨.charDef .uppercase 'A' [[.d1, .d7]] RuleCons.none, 2⟩]

/-- A system without files, whose alphabetic characters are the ASCII letters. -/
def demoSys : Sys := ⟨Char.isAlpha, fun _ => none⟩

/-- **C17 is false of the code** when the first definition is a `base` rule: a later direct definition replaces it in the
definitions, while the text is still translated with the first one. -/
theorem C17_base_overridden_wrong :
    (TableCtx.compile demoSys.alpha (baseRules.take 2)).defs.get 'A' = some "⠁".toList ∧
    (TableCtx.compile demoSys.alpha baseRules).defs.get 'A' = some "⡁".toList ∧
    ∃ steps tss, Pipeline.compile demoSys baseRules .forward = .ok steps ∧ Pipeline.Traces ascii [] "A".toList steps tss ∧
      lastOutput "A".toList tss = "⠁".toList := by
  refine ⟨by decide +kernel, by decide +kernel, ?_⟩
  have h : ∃ tss, Pipeline.run demoSys ascii 10 baseRules .forward [] "A".toList = some tss ∧
      lastOutput "A".toList tss = "⠁".toList := ⟨_, rfl, by decide +kernel⟩
  obtain ⟨tss, h, ho⟩ := h
  obtain ⟨steps, hc, ht⟩ := Pipeline.run_sound h
  exact ⟨steps, tss, hc, ht, ho⟩

/-- Non-vacuity: the third rule is the first definition of `A`. -/
example : (∃ dots, (⟨.charDef .uppercase 'A' [[.d1, .d7]] RuleCons.none, 2⟩ : Anchored).rule.Defines 'A' dots) ∧
    ∀ q ∈ baseRules.take 2, ∀ ds, ¬ q.rule.Defines 'A' ds := by
  refine ⟨⟨_, Or.inl ⟨_, _, _, rfl, rfl⟩⟩, ?_⟩
  intro q hq ds h
  rw [← directOf_iff] at h
  simp [baseRules] at hq
  rcases hq with rfl | rfl <;> simp [directOf] at h

/-- Non-vacuity of `C17_implicit` and `C17_implicit_error`. -/
example : (TableCtx.compile demoSys.alpha baseRules).defs.resolve "aAa".toList = .ok "⠁⡁⠁".toList ∧
    (TableCtx.compile demoSys.alpha baseRules).defs.resolve "axy".toList = .error (.implicitCharacterNotDefined 'x') :=
  ⟨rfl, rfl⟩

end Louis
