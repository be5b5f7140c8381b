import Verif.Lemmas.Agree
import Verif.Spec.SameLines
import Verif.Props.Longest
import Verif.Props.Pipeline
import Verif.Props.WordsSeam
import Verif.Lemmas.Compiles
import Verif.Lemmas.Canon

/-!
# C76: a text is translated by the lines for the words that occur in it
-/

namespace Louis

open Regexp (Fault)

/-! ## Dictionaries -/

theorem pathFilter_of_from {ctx : CharClasses} {d : Direction} {path : List RTrans} {r : TrieRule} (hr : r.path ctx d = path)
    (rs : List TrieRule) : rs.filter (fun x => x.path ctx d = path) =
      (rs.filter fun x => x.from d == r.from d).filter fun x => x.path ctx d = path := by
  rw [List.filter_filter]
  apply List.filter_congr
  intro x _
  by_cases h : x.path ctx d = path
  · have : x.from d = r.from d := by rw [← chars_of_path (ctx := ctx) x, ← chars_of_path (ctx := ctx) r, h, hr]
    simp [h, this]
  · simp [h]

/-- The same is found, for a suitable order of the hash maps, in all texts whose words have the same entries. -/
theorem dictionary_agree {ctx : CharClasses} {d : Direction} {rs rs' : List TrieRule}
    {t t₀ : Trie} (h : Dictionary ctx d rs t) (h' : Trie.insertAll ctx d rs' Trie.empty = some t₀) :
    ∃ t', t₀.SameEntries t' ∧ ∀ lower input,
      (∀ w, w ≠ [] → Occurs lower input w → rs.filter (fun r => r.from d == w) = rs'.filter (fun r => r.from d == w)) →
      ∀ k prev, t.find lower (input.drop k) prev = t'.find lower (input.drop k) prev := by
  have hd' : Dictionary ctx d rs' t₀ := ⟨t₀, h', (insertAll_spec h' map_empty).1, fun _ => rfl⟩
  have hm : t.Map := by obtain ⟨x, -, hx⟩ := h; exact hx.1
  have key : ∀ p, t₀.at p ≠ t.at p → ∃ r, r ∈ rs ++ rs' ∧ r.path ctx d = p ∧
      rs.filter (fun x => x.from d == r.from d) ≠ rs'.filter (fun x => x.from d == r.from d) := by
    intro p hne
    rw [hd'.at, h.at] at hne
    have hex : ∃ r, r ∈ rs ++ rs' ∧ r.path ctx d = p := by
      apply Classical.byContradiction
      intro hn
      have e1 : rs.filter (fun r => decide (r.path ctx d = p)) = [] := by
        rw [List.filter_eq_nil_iff]
        intro r hr
        simpa using fun e => hn ⟨r, List.mem_append_left _ hr, e⟩
      have e2 : rs'.filter (fun r => decide (r.path ctx d = p)) = [] := by
        rw [List.filter_eq_nil_iff]
        intro r hr
        simpa using fun e => hn ⟨r, List.mem_append_right _ hr, e⟩
      rw [e1, e2] at hne
      exact hne rfl
    obtain ⟨r, hr, hp⟩ := hex
    refine ⟨r, hr, hp, fun e => hne ?_⟩
    rw [pathFilter_of_from hp rs, pathFilter_of_from hp rs', e]
  obtain ⟨t', h1, h2⟩ := agree_variant (t₀ := t₀) hm ((rs ++ rs').map (·.path ctx d))
    (fun p hne => by
      obtain ⟨r, hr, hp, -⟩ := key p hne
      exact List.mem_map.2 ⟨r, hr, hp⟩)
  refine ⟨t', h1, fun lower input hw k prev => (h2 lower _ prev fun p _ hne hmt => ?_).symm⟩
  obtain ⟨r, hr, hp, hf⟩ := key p hne
  subst hp
  obtain ⟨consumed, rest, e, hsp, -⟩ := path_iff.1 hmt
  refine hf (hw _ ?_ ⟨input.take k, consumed, rest, ?_, hsp⟩)
  · rcases List.mem_append.1 hr with hr | hr
    · exact h.nonempty r hr
    · exact hd'.nonempty r hr
  · rw [← e, List.take_append_drop]

/-! ## The lines and what they give -/

theorem reads_of_ops {ctx : TableCtx} {d : Direction} {lit : List Char} {letterDots : List Text} {r : Anchored} {op : PrimOp} {e : TrieRule}
    (hop : op ∈ r.firstOps ∨ op ∈ r.opsD ctx d lit letterDots) (he : (∃ b, opEntry d b op = some e) ∨ op = .comp6 e) :
    r.rule.reads ctx.defs d = some (e.from d) := by
  have hchar : ∀ {c : Char} {dots : Text} {prec : Prec} {o : Origin}, op = .char c dots prec o → d = .backward ∧ e.from d = dots := by
    rintro c dots prec o rfl
    rcases he with ⟨b, hb⟩ | he
    · simp only [opEntry] at hb
      split at hb
      · next h => injection hb with hb; subst hb; exact ⟨h.2, by rw [h.2]; rfl⟩
      · cases hb
    · cases he
  have hrule : ∀ {n : Bool} {x : TrieRule}, op = .rule n x → e = x := by
    rintro n x rfl
    rcases he with ⟨b, hb⟩ | he
    · simp only [opEntry] at hb
      split at hb
      · injection hb with hb; exact hb.symm
      · cases hb
    · cases he
  obtain ⟨rule, id⟩ := r
  rcases hop with hop | hop
  · unfold Anchored.firstOps at hop
    split at hop
    · next h =>
      simp only at h
      subst h
      obtain ⟨rfl, h⟩ := hchar (List.mem_singleton.1 hop)
      rw [h]; rfl
    · next h =>
      simp only at h
      subst h
      obtain ⟨rfl, h⟩ := hchar (List.mem_singleton.1 hop)
      rw [h]; rfl
    · cases hop
  · unfold Anchored.opsD Anchored.ops Anchored.signOps Anchored.digitOps Anchored.insertion at hop
    cases rule
    case charDef k c dots cons =>
      have : op = .char c dots.toText (Rule.prec (.charDef k c dots cons)) (Anchored.origin ⟨.charDef k c dots cons, id⟩) := by
        cases k <;> simp only [okOf, Option.getD_some, List.mem_append, List.mem_cons, List.not_mem_nil, or_false] at hop
        all_goals (try exact hop)
        all_goals
          rcases hop with hop | hop
          · first
              | exact hop
              | (split at hop
                 · cases hop
                 · exact List.mem_singleton.1 hop)
          · exfalso
            split at hop
            · split at hop
              · cases List.mem_singleton.1 hop
                rcases he with ⟨b, hb⟩ | he
                · cases hb
                · cases he
              · cases hop
            · cases hop
      obtain ⟨rfl, h⟩ := hchar this
      rw [h]; rfl
    case base name derived b =>
      simp only at hop
      split at hop
      · next dots hd =>
        obtain ⟨rfl, h⟩ := hchar (List.mem_singleton.1 hop)
        rw [h]; exact hd
      · cases hop
    case text k chars dots cons withs =>
      simp only at hop
      split at hop
      · cases hop
      · next cells hc =>
        simp only [okOf, Option.getD_some, List.mem_map] at hop
        obtain ⟨_, -, hop⟩ := hop
        rw [hrule hop.symm]
        cases d
        · rfl
        · simp [Rule.reads, Rule.givenCells, hc, TrieRule.from]
    case comp6 chars dots =>
      simp only at hop
      split at hop
      · cases hop
      · next cells hc =>
        cases List.mem_singleton.1 hop
        rcases he with ⟨b, hb⟩ | he
        · cases hb
        · injection he with he
          subst he
          cases d
          · rfl
          · simp [Rule.reads, Rule.givenCells, hc, TrieRule.from]
    case contraction chars =>
      simp only at hop
      split at hop
      · cases hop
      · next cells hc =>
        rw [hrule (List.mem_singleton.1 hop)]
        cases d
        · rfl
        · have hc' : ctx.defs.resolve chars = .ok cells := hc
          simp [Rule.reads, Rule.givenCells, hc', TrieRule.from]
    case syllable chars dots =>
      simp only at hop
      split at hop
      · cases hop
      · next cells hc =>
        rw [hrule (List.mem_singleton.1 hop)]
        cases d
        · rfl
        · simp [Rule.reads, Rule.givenCells, hc, TrieRule.from]
    case endnum chars dots cons =>
      simp only at hop
      split at hop
      · cases hop
      · next cells hc =>
        rw [hrule (List.mem_singleton.1 hop)]
        cases d
        · rfl
        · simp [Rule.reads, Rule.givenCells, hc, TrieRule.from]
    case matchRule pre chars post dots cons =>
      simp only at hop
      split at hop
      · cases hop
      · cases List.mem_singleton.1 hop
        rcases he with ⟨b, hb⟩ | he
        · cases hb
        · cases he
    case pass k test action cons =>
      cases k <;> simp only [okOf, Option.getD_some, List.mem_singleton, List.not_mem_nil] at hop
      subst hop
      rcases he with ⟨b, hb⟩ | he
      · cases hb
      · cases he
    case undefined dots =>
      cases List.mem_singleton.1 hop
      rcases he with ⟨b, hb⟩ | he
      · cases hb
      · cases he
    all_goals try (cases hop; done)
    case largesign | joinword | lowword | begnum | midnum =>
      rw [hrule (List.mem_singleton.1 hop)]
      cases d <;> rfl
    case prepunc | postpunc =>
      simp only [okOf, Option.getD_some] at hop
      split at hop
      · rw [hrule (List.mem_singleton.1 hop)]
        cases d <;> rfl
      · cases hop
    all_goals
      simp only [okOf, Option.getD_some] at hop
      split at hop
      · next h =>
        rw [hrule (List.mem_singleton.1 hop)]
        cases d
        · cases h
        · rfl
      · cases hop

theorem filter_flatMap_key {α β : Type} {key : α → Option Text} {F : α → List β} {from' : β → Text} {w : Text} :
    ∀ (l : List α), (∀ a ∈ l, ∀ e ∈ F a, key a = some (from' e)) →
    (l.flatMap F).filter (fun e => from' e == w) = (l.filter fun a => key a == some w).flatMap F
  | [], _ => rfl
  | a :: l, h => by
    rw [List.flatMap_cons, List.filter_append, filter_flatMap_key l fun x hx => h x (List.mem_cons_of_mem _ hx), List.filter_cons]
    have ha := h a (List.mem_cons_self ..)
    split
    · next hk =>
      rw [List.flatMap_cons]
      congr 1
      rw [List.filter_eq_self]
      intro e he
      have := ha e he
      rw [this] at hk
      simpa using hk
    · next hk =>
      suffices (F a).filter (fun e => from' e == w) = [] by rw [this]; rfl
      rw [List.filter_eq_nil_iff]
      intro e he h'
      rw [ha e he] at hk
      simp at hk h'
      exact hk h'

/-- The entries of a dictionary for one word come from the lines that read this word. -/
theorem entries_for {ctx : TableCtx} {d : Direction} {rules : List Anchored} {w : Text} {g : PrimOp → Option TrieRule}
    (hg : ∀ op e, g op = some e → (∃ b, opEntry d b op = some e) ∨ op = .comp6 e) :
    ((tableOps ctx d rules).filterMap g).filter (fun e => e.from d == w) =
      (rules.filter fun r => r.rule.reads ctx.defs d == some w).flatMap (fun r => r.firstOps.filterMap g) ++
      (rules.filter fun r => r.rule.reads ctx.defs d == some w).flatMap
        (fun r => (r.opsD ctx d (litdigitChars d rules) (letterDotsOf d rules)).filterMap g) := by
  unfold tableOps
  rw [List.filterMap_append, List.filter_append, List.filterMap_flatMap, List.filterMap_flatMap,
    filter_flatMap_key (key := fun r => r.rule.reads ctx.defs d), filter_flatMap_key (key := fun r => r.rule.reads ctx.defs d)]
  · intro r _ e he
    obtain ⟨op, hop, he⟩ := List.mem_filterMap.1 he
    exact reads_of_ops (.inr hop) (hg op e he)
  · intro r _ e he
    obtain ⟨op, hop, he⟩ := List.mem_filterMap.1 he
    exact reads_of_ops (lit := litdigitChars d rules) (letterDots := letterDotsOf d rules) (.inl hop) (hg op e he)

/-! ## Everything but the dictionaries -/

/-- The operation is not the insertion of an entry with several characters into a dictionary. -/
def PrimOp.isCore : PrimOp → Bool
  | .rule _ _ | .comp6 _ => false
  | _ => true

def coreStep (ctx : PrimCtx) (t : PrimaryTable) (op : PrimOp) : PrimaryTable :=
  match t.apply ctx op with
  | .ok t' => t'.core
  | .error _ => t

theorem apply_core {ctx : PrimCtx} {op : PrimOp} {t t' : PrimaryTable} (h : t.apply ctx op = .ok t') :
    t'.core = if op.isCore then coreStep ctx t.core op else t.core := by
  cases op with
  | char c dots prec origin =>
    obtain ⟨a1, a2, dir, a4, a5, a6, a7, a8, a9, a10⟩ := t
    simp only [PrimOp.isCore, if_true, coreStep, PrimaryTable.core]
    cases dir
    · cases h; rfl
    · unfold PrimaryTable.apply at h ⊢
      simp only at h ⊢
      split at h
      · cases h
      · injection h with h
        subst h
        cases orPanic (Trie.empty.insert ctx.trieClasses .backward ⟨[c], dots, none, none, [], prec, .main, origin⟩) <;> rfl
  | rule n r =>
    unfold PrimaryTable.apply at h
    cases n <;> simp only at h <;> split at h <;> cases h <;> rfl
  | comp6 r =>
    unfold PrimaryTable.apply at h
    simp only at h
    split at h <;> cases h <;> rfl
  | matchRule pre chars post to origin =>
    unfold PrimaryTable.apply at h
    simp only [PrimOp.isCore, if_true, coreStep]
    unfold PrimaryTable.apply
    simp only at h ⊢
    split at h
    · cases h
    · injection h with h; subst h; rfl
  | context test action origin =>
    unfold PrimaryTable.apply at h
    simp only [PrimOp.isCore, if_true, coreStep]
    unfold PrimaryTable.apply
    simp only at h ⊢
    split at h
    · cases h
    · injection h with h; subst h; rfl
  | undefined dots => cases h; rfl
  | digitOverride cell character origin => cases h; rfl

theorem applyAll_core {ctx : PrimCtx} : ∀ {ops : List PrimOp} {t t' : PrimaryTable}, PrimaryTable.applyAll ctx ops t = .ok t' →
    t'.core = (ops.filter (·.isCore)).foldl (coreStep ctx) t.core
  | [], t, t', h => by cases h; rfl
  | op :: ops, t, t', h => by
    unfold PrimaryTable.applyAll at h
    split at h
    · cases h
    · next t₁ h₁ =>
      rw [applyAll_core h, apply_core h₁, List.filter_cons]
      cases op.isCore <;> rfl

theorem isCore_ops {ctx : TableCtx} {d : Direction} {lit : List Char} {letterDots : List Text} {r : Anchored}
    (h : r.rule.onlyTranslates = true) :
    r.firstOps = [] ∧ (r.opsD ctx d lit letterDots).filter (·.isCore) = [] := by
  obtain ⟨rule, id⟩ := r
  cases rule <;> try (cases h; done)
  all_goals
    refine ⟨rfl, ?_⟩
    unfold Anchored.opsD Anchored.ops Anchored.insertion
    simp only
    try split
    all_goals first
      | rfl
      | (simp only [okOf, Option.getD_some, List.filter_map]
         rw [List.map_eq_nil_iff, List.filter_eq_nil_iff]
         intro _ _ h
         cases h)

theorem flatMap_filter {α β : Type} {q : α → Bool} {F : α → List β} : ∀ (l : List α), (∀ a ∈ l, q a = false → F a = []) →
    l.flatMap F = (l.filter q).flatMap F
  | [], _ => rfl
  | a :: l, h => by
    rw [List.flatMap_cons, flatMap_filter l fun x hx => h x (List.mem_cons_of_mem _ hx), List.filter_cons]
    split
    · rw [List.flatMap_cons]
    · next hq => rw [h a (List.mem_cons_self ..) (by simpa using hq)]; rfl

/-- The operations other than the insertion of entries come from the lines that do not only translate a piece of text. -/
theorem core_ops {ctx : TableCtx} {d : Direction} {rules : List Anchored} :
    (tableOps ctx d rules).filter (·.isCore) =
      (rules.filter (!·.rule.onlyTranslates)).flatMap (fun r => r.firstOps.filter (·.isCore)) ++
      (rules.filter (!·.rule.onlyTranslates)).flatMap
        (fun r => (r.opsD ctx d (litdigitChars d rules) (letterDotsOf d rules)).filter (·.isCore)) := by
  unfold tableOps
  rw [List.filter_append, List.filter_flatMap, List.filter_flatMap, ← flatMap_filter, ← flatMap_filter]
  · intro r _ hr
    exact (isCore_ops (by simpa using hr)).2
  · intro r _ hr
    rw [(isCore_ops (ctx := ctx) (d := d) (lit := []) (letterDots := []) (by simpa using hr)).1]
    rfl

theorem filterMap_filter_none {α β : Type} {q : α → Bool} {f : α → Option β} : ∀ (l : List α), (∀ a ∈ l, q a = false → f a = none) →
    l.filterMap f = (l.filter q).filterMap f
  | [], _ => rfl
  | a :: l, h => by
    have ih := filterMap_filter_none l fun x hx => h x (List.mem_cons_of_mem _ hx)
    rw [List.filter_cons]
    split
    · rw [List.filterMap_cons, List.filterMap_cons, ih]
    · next hq => rw [List.filterMap_cons_none (h a (List.mem_cons_self ..) (by simpa using hq)), ih]

theorem litdigitChars_others {d : Direction} (rules : List Anchored) :
    litdigitChars d rules = litdigitChars d (rules.filter (!·.rule.onlyTranslates)) := by
  cases d
  · refine filterMap_filter_none rules fun r _ hr => ?_
    obtain ⟨rule, id⟩ := r
    cases rule <;> first | rfl | cases hr
  · rfl

theorem letterDotsOf_others {d : Direction} (rules : List Anchored) :
    letterDotsOf d rules = letterDotsOf d (rules.filter (!·.rule.onlyTranslates)) := by
  cases d
  · rfl
  · refine filterMap_filter_none rules fun r _ hr => ?_
    obtain ⟨rule, id⟩ := r
    cases rule <;> first | rfl | cases hr

theorem passRules_others {k : PassKind} (rules : List Anchored) :
    passRules k rules = passRules k (rules.filter (!·.rule.onlyTranslates)) := by
  refine filterMap_filter_none rules fun r _ hr => ?_
  obtain ⟨rule, id⟩ := r
  cases rule <;> first | rfl | cases hr

theorem foldl_filter_id {α β : Type} {q : α → Bool} {f : β → α → β} : ∀ (l : List α) (b : β), (∀ a ∈ l, q a = false → ∀ b, f b a = b) →
    l.foldl f b = (l.filter q).foldl f b
  | [], _, _ => rfl
  | a :: l, b, h => by
    have ih := fun b => foldl_filter_id l b fun x hx => h x (List.mem_cons_of_mem _ hx)
    rw [List.foldl_cons, List.filter_cons]
    split
    · rw [List.foldl_cons, ih]
    · next hq => rw [h a (List.mem_cons_self ..) (by simpa using hq), ih]

theorem first_others (rules : List Anchored) (s : Signs) :
    rules.foldl Signs.first s = (rules.filter (!·.rule.onlyTranslates)).foldl Signs.first s := by
  refine foldl_filter_id rules s fun r _ hr b => ?_
  obtain ⟨rule, id⟩ := r
  cases rule <;> first | rfl | cases hr

theorem signsLoop_others {sys : Sys} {classes : CharClasses} {d : Direction} {letterDots : List Text} :
    ∀ (rules : List Anchored) (s : Signs), signsLoop sys classes d letterDots rules s =
      signsLoop sys classes d letterDots (rules.filter (!·.rule.onlyTranslates)) s
  | [], _ => rfl
  | r :: rules, s => by
    have ih := signsLoop_others (sys := sys) (classes := classes) (d := d) (letterDots := letterDots) rules
    rw [List.filter_cons]
    split
    · unfold signsLoop
      split
      · rfl
      · rw [ih]
    · next hr =>
      have : (s.step classes d letterDots r).hyphenate sys r = .ok s := by
        obtain ⟨rule, id⟩ := r
        cases rule <;> first | rfl | (exfalso; exact hr rfl)
      rw [signsLoop, this]
      exact ih s

/-! ## The definitions of the table -/

/-- What two tables have in common that differ only in lines that translate a piece of text. -/
structure TableCtx.Alike (d : Direction) (ctx ctx' : TableCtx) : Prop where
  defs : ctx.defs = ctx'.defs
  classes : ctx.classes = ctx'.classes
  swaps : ctx.swaps = ctx'.swaps
  dots : d = .backward → ctx.dots.Alike ctx'.dots

/-- The classes of cells are left out. -/
def TableCtx.noDots (ctx : TableCtx) : TableCtx := { ctx with dots := [] }

theorem define_noDots {alpha : Char → Bool} (ctx : TableCtx) (r : Rule) :
    (ctx.define alpha r).noDots = (ctx.noDots.define alpha r).noDots := by
  unfold TableCtx.define
  split
  · rfl
  · rfl
  · split <;> rfl
  · rfl

theorem derive_noDots (ctx : TableCtx) (r : Rule) : (ctx.derive r).noDots = (ctx.noDots.derive r).noDots := by
  cases r <;> try rfl
  case base name derived b =>
    unfold TableCtx.derive
    simp only [TableCtx.noDots]
    split <;> rfl

theorem foldl_noDots {f : TableCtx → Rule → TableCtx} (hf : ∀ ctx r, (f ctx r).noDots = (f ctx.noDots r).noDots) :
    ∀ (rules : List Anchored) (ctx : TableCtx),
    (rules.foldl (fun ctx r => f ctx r.rule) ctx).noDots = rules.foldl (fun ctx r => (f ctx r.rule).noDots) ctx.noDots
  | [], _ => rfl
  | r :: rules, ctx => by
    rw [List.foldl_cons, List.foldl_cons, foldl_noDots hf rules, hf]

theorem derive_only {ctx : TableCtx} {r : Rule} (h : r.onlyTranslates = true) : ctx.derive r = ctx := by
  cases r <;> first | rfl | cases h

theorem define_only {alpha : Char → Bool} {ctx : TableCtx} {r : Rule} (h : r.onlyTranslates = true)
    (h' : r.letterCells alpha = false) : ctx.define alpha r = ctx := by
  cases r <;> try (first | rfl | (cases h; done))
  case text k chars dots cons withs =>
    cases k <;> try rfl
    unfold TableCtx.define
    simp only [Rule.letterCells] at h'
    simp [h']

theorem define_noDots_only {alpha : Char → Bool} {ctx : TableCtx} {r : Rule} (h : r.onlyTranslates = true) (hc : ctx.noDots = ctx) :
    (ctx.define alpha r).noDots = ctx := by
  cases r <;> try (first | exact hc | (cases h; done))
  case text k chars dots cons withs =>
    cases k <;> try exact hc
    unfold TableCtx.define
    simp only
    split <;> exact hc

theorem foldl_filter_inv {α β : Type} {P : β → Prop} {q : α → Bool} {f : β → α → β} (hP : ∀ b a, P (f b a)) : ∀ (l : List α) (b : β), P b →
    (∀ a ∈ l, q a = false → ∀ b, P b → f b a = b) → l.foldl f b = (l.filter q).foldl f b
  | [], _, _, _ => rfl
  | a :: l, b, hb, h => by
    have ih := fun b hb => foldl_filter_inv hP l b hb fun x hx => h x (List.mem_cons_of_mem _ hx)
    rw [List.foldl_cons, List.filter_cons]
    split
    · rw [List.foldl_cons, ih _ (hP ..)]
    · next hq => rw [h a (List.mem_cons_self ..) (by simpa using hq) b hb, ih _ hb]

/-- The definitions, apart from the classes of cells, do not depend on lines that only translate a piece of text. -/
theorem compile_noDots {alpha : Char → Bool} (rules : List Anchored) : (TableCtx.compile alpha rules).noDots =
    (rules.filter (!·.rule.onlyTranslates)).foldl (fun ctx r => (ctx.derive r.rule).noDots)
      ((rules.filter (!·.rule.onlyTranslates)).foldl (fun ctx r => (ctx.define alpha r.rule).noDots) ⟨[], [], [], []⟩) := by
  unfold TableCtx.compile
  simp only
  rw [foldl_noDots derive_noDots, foldl_noDots (f := fun c r => c.define alpha r) define_noDots]
  rw [foldl_filter_inv (P := fun c => c.noDots = c) (q := fun r => !r.rule.onlyTranslates) (fun _ _ => rfl) rules
    (TableCtx.noDots ⟨[], [], [], []⟩) rfl (fun r _ hr b hb => define_noDots_only (by simpa using hr) hb)]
  refine foldl_filter_inv (P := fun c => c.noDots = c) (fun _ _ => rfl) rules _ ?_
    (fun r _ hr b hb => by rw [derive_only (by simpa using hr)]; exact hb)
  generalize rules.filter (!·.rule.onlyTranslates) = l
  rcases List.eq_nil_or_concat l with rfl | ⟨u, y, rfl⟩
  · rfl
  · rw [List.concat_eq_append, List.foldl_append]
    rfl

/-- The classes of the second table have these members in addition to those of the first. -/
def More (E : CharClass → Char → Prop) (a b : CharClasses) : Prop := ∀ k c, (k, c) ∈ b ↔ (k, c) ∈ a ∨ E k c

theorem More.insert {E : CharClass → Char → Prop} {a b : CharClasses} (h : More E a b) (k : CharClass) (c : Char) :
    More E (a.insert k c) (b.insert k c) := by
  intro k' c'
  simp only [CharClasses.insert, List.mem_append, h k' c']
  grind

theorem More.insertDots {E : CharClass → Char → Prop} {a b : CharClasses} (h : More E a b) (k : CharClass) (dots : Cells) :
    More E (a.insertDots k dots) (b.insertDots k dots) := by
  unfold CharClasses.insertDots
  split
  · exact h.insert _ _
  · exact h

theorem More.insertAssociated {E : CharClass → Char → Prop} {a b : CharClasses} (h : More E a b) (k : CharClass) (c : Char) (defs : CharDefs) :
    More E (a.insertAssociated k c defs) (b.insertAssociated k c defs) := by
  unfold CharClasses.insertAssociated
  split
  · exact h.insert _ _
  · exact h

theorem More.foldl {α : Type} {E : CharClass → Char → Prop} {f : CharClasses → α → CharClasses}
    (hf : ∀ a b x, More E a b → More E (f a x) (f b x)) : ∀ (l : List α) {a b : CharClasses}, More E a b → More E (l.foldl f a) (l.foldl f b)
  | [], _, _, h => h
  | x :: l, _, _, h => More.foldl hf l (hf _ _ x h)

/-- The same definitions, with more members of the classes of cells. -/
structure TableCtx.Extends (E : CharClass → Char → Prop) (ctx ctx' : TableCtx) : Prop where
  defs : ctx.defs = ctx'.defs
  classes : ctx.classes = ctx'.classes
  swaps : ctx.swaps = ctx'.swaps
  dots : More E ctx.dots ctx'.dots

theorem TableCtx.Extends.define {E : CharClass → Char → Prop} {ctx ctx' : TableCtx} (h : ctx.Extends E ctx') (alpha : Char → Bool) (r : Rule) :
    (ctx.define alpha r).Extends E (ctx'.define alpha r) := by
  obtain ⟨h1, h2, h3, h4⟩ := h
  unfold TableCtx.define
  split
  · exact ⟨by simp only [h1], by simp only [h2], h3, by apply More.foldl _ _ h4; exact fun _ _ _ h => h.insertDots _ _⟩
  · exact ⟨by simp only [h1], by simp only [h2], h3, h4.insertDots _ _⟩
  · split
    · exact ⟨h1, h2, h3, by apply More.foldl _ _ h4; exact fun _ _ _ h => h.insert _ _⟩
    · exact ⟨h1, h2, h3, h4⟩
  · exact ⟨h1, h2, h3, h4⟩

theorem TableCtx.Extends.addMembers {E : CharClass → Char → Prop} {ctx ctx' : TableCtx} (h : ctx.Extends E ctx') (k kd : CharClass) (chars : Text) :
    (ctx.addMembers k kd chars).Extends E (ctx'.addMembers k kd chars) := by
  obtain ⟨h1, h2, h3, h4⟩ := h
  exact ⟨h1, by simp only [TableCtx.addMembers, h2], h3, by
    simp only [TableCtx.addMembers, h1]
    apply More.foldl _ _ h4
    exact fun _ _ _ h => h.insertAssociated _ _ _⟩

theorem TableCtx.Extends.derive {E : CharClass → Char → Prop} {ctx ctx' : TableCtx} (h : ctx.Extends E ctx') (r : Rule) :
    (ctx.derive r).Extends E (ctx'.derive r) := by
  have ha := fun k kd chars => h.addMembers k kd chars
  have hw : ∀ {x y : TableCtx} (s : SwapClasses), x.Extends E y → ({ x with swaps := s } : TableCtx).Extends E { y with swaps := s } :=
    fun s h => ⟨h.defs, h.classes, rfl, h.dots⟩
  cases r <;> try exact h
  case base name derived b =>
    unfold TableCtx.derive
    simp only [h.defs]
    split
    · exact h
    · exact ⟨rfl, by simp only [h.classes], h.swaps, h.dots⟩
  case «attribute» => exact ha ..
  case seqdelimiter => exact ha ..
  case seqbeforechars => exact ha ..
  case seqafterchars => exact ha ..
  case swapcc => simp only [TableCtx.derive, h.swaps]; exact hw _ (ha ..)
  case swapcd => simp only [TableCtx.derive, h.swaps]; exact hw _ (ha ..)
  case swapdd => simp only [TableCtx.derive, h.swaps]; exact hw _ (ha ..)

theorem mem_foldl_insert {k k' : CharClass} {c' : Char} : ∀ (l : List Char) (cs : CharClasses),
    (k', c') ∈ l.foldl (fun cs c => cs.insert k c) cs ↔ (k', c') ∈ cs ∨ k' = k ∧ c' ∈ l
  | [], cs => by simp
  | c :: l, cs => by
    rw [List.foldl_cons, mem_foldl_insert l]
    simp only [CharClasses.insert, List.mem_append, List.mem_cons, List.not_mem_nil, or_false, Prod.mk.injEq]
    grind

/-- A line that only translates a piece of text can define nothing but letters among the cells. -/
theorem TableCtx.Extends.define_right {alpha : Char → Bool} {E : CharClass → Char → Prop} {ctx ctx' : TableCtx} (h : ctx.Extends E ctx')
    {r : Anchored} (hr : r.rule.onlyTranslates = true) :
    ctx.Extends (fun k c => E k c ∨ k = .letter ∧ c ∈ alwaysCells alpha [r]) (ctx'.define alpha r.rule) := by
  have same : alwaysCells alpha [r] = [] → ctx.Extends (fun k c => E k c ∨ k = .letter ∧ c ∈ alwaysCells alpha [r]) ctx' := by
    intro e
    exact ⟨h.defs, h.classes, h.swaps, fun k c => by rw [h.dots k c, e]; simp⟩
  obtain ⟨rule, id⟩ := r
  cases rule <;> try (first | (cases hr; done) | exact same rfl)
  case text kind chars dots cons withs =>
    cases kind <;> try exact same rfl
    by_cases hc : chars.all alpha = true
    · simp only [TableCtx.define, hc, if_true]
      refine ⟨h.defs, h.classes, h.swaps, fun k c => ?_⟩
      rw [mem_foldl_insert, h.dots k c]
      simp only [alwaysCells, List.flatMap_cons, List.flatMap_nil, List.append_nil, hc, if_true]
      grind
    · simp only [TableCtx.define, hc]
      exact same (by simp only [alwaysCells, List.flatMap_cons, List.flatMap_nil, List.append_nil, hc, Bool.false_eq_true, if_false])

theorem extends_defines {alpha : Char → Bool} : ∀ (rules : List Anchored) {E : CharClass → Char → Prop} {ctx ctx' : TableCtx}, ctx.Extends E ctx' →
    ((rules.filter (!·.rule.onlyTranslates)).foldl (fun ctx r => ctx.define alpha r.rule) ctx).Extends
      (fun k c => E k c ∨ k = .letter ∧ c ∈ alwaysCells alpha rules) (rules.foldl (fun ctx r => ctx.define alpha r.rule) ctx')
  | [], E, ctx, ctx', h => ⟨h.defs, h.classes, h.swaps, fun k c => by simpa [alwaysCells] using h.dots k c⟩
  | r :: rules, E, ctx, ctx', h => by
    have hcons : ∀ c, c ∈ alwaysCells alpha (r :: rules) ↔ c ∈ alwaysCells alpha [r] ∨ c ∈ alwaysCells alpha rules := by
      intro c
      simp only [alwaysCells, List.flatMap_cons, List.flatMap_nil, List.append_nil, List.mem_append]
    cases hr : r.rule.onlyTranslates
    · have h0 : alwaysCells alpha [r] = [] := by
        obtain ⟨rule, id⟩ := r
        cases rule <;> first | rfl | cases hr
      have e : (r :: rules).filter (!·.rule.onlyTranslates) = r :: rules.filter (!·.rule.onlyTranslates) := by simp [hr]
      rw [e, List.foldl_cons, List.foldl_cons]
      have ih := extends_defines (alpha := alpha) rules (h.define alpha r.rule)
      refine ⟨ih.defs, ih.classes, ih.swaps, fun k c => ?_⟩
      rw [ih.dots k c, hcons, h0]
      simp
    · have e : (r :: rules).filter (!·.rule.onlyTranslates) = rules.filter (!·.rule.onlyTranslates) := by simp [hr]
      rw [e, List.foldl_cons]
      have ih := extends_defines (alpha := alpha) rules (h.define_right (alpha := alpha) hr)
      refine ⟨ih.defs, ih.classes, ih.swaps, fun k c => ?_⟩
      rw [ih.dots k c, hcons]
      grind

theorem extends_derives {E : CharClass → Char → Prop} : ∀ (rules : List Anchored) {ctx ctx' : TableCtx}, ctx.Extends E ctx' →
    (rules.foldl (fun ctx r => ctx.derive r.rule) ctx).Extends E (rules.foldl (fun ctx r => ctx.derive r.rule) ctx')
  | [], _, _, h => h
  | r :: rules, _, _, h => extends_derives rules (h.derive r.rule)

/-- The definitions of a table come from the lines that do not only translate a piece of text; the other lines can only make cells
letters. -/
theorem compile_extends {alpha : Char → Bool} (rules : List Anchored) :
    (TableCtx.compile alpha (rules.filter (!·.rule.onlyTranslates))).Extends (fun k c => k = .letter ∧ c ∈ alwaysCells alpha rules)
      (TableCtx.compile alpha rules) := by
  have h0 : (⟨[], [], [], []⟩ : TableCtx).Extends (fun _ _ => False) ⟨[], [], [], []⟩ := ⟨rfl, rfl, rfl, fun k c => by simp⟩
  have h := extends_derives (rules.filter (!·.rule.onlyTranslates)) (extends_defines (alpha := alpha) rules h0)
  unfold TableCtx.compile
  simp only
  have e := foldl_filter_id (q := fun r : Anchored => !r.rule.onlyTranslates) (f := fun (ctx : TableCtx) r => ctx.derive r.rule) rules
    (rules.foldl (fun ctx r => ctx.define alpha r.rule) ⟨[], [], [], []⟩) (fun r _ hr b => derive_only (by simpa using hr))
  rw [e]
  exact ⟨h.defs, h.classes, h.swaps, fun k c => by rw [h.dots k c]; simp⟩

theorem mem_alwaysCells {alpha : Char → Bool} {rules rules' : List Anchored}
    (h : ∀ r : Anchored, r.rule.letterCells alpha = true → (r ∈ rules ↔ r ∈ rules')) (c : Char) :
    c ∈ alwaysCells alpha rules ↔ c ∈ alwaysCells alpha rules' := by
  have key : ∀ {l l' : List Anchored}, (∀ r : Anchored, r.rule.letterCells alpha = true → r ∈ l → r ∈ l') →
      c ∈ alwaysCells alpha l → c ∈ alwaysCells alpha l' := by
    intro l l' h hc
    unfold alwaysCells at hc ⊢
    rw [List.mem_flatMap] at hc ⊢
    obtain ⟨r, hr, hc⟩ := hc
    refine ⟨r, h r ?_ hr, hc⟩
    clear hr h
    obtain ⟨rule, id⟩ := r
    cases rule <;> try (cases hc; done)
    case text kind chars dots cons withs =>
      cases kind <;> try (cases hc; done)
      simp only at hc
      simp only [Rule.letterCells]
      split at hc
      · assumption
      · cases hc
  exact ⟨key fun r hl hr => (h r hl).1 hr, key fun r hl hr => (h r hl).2 hr⟩

/-- The same cells are in the same classes. -/
theorem compile_letterCells {alpha : Char → Bool} {rules rules' : List Anchored}
    (ho : rules.filter (!·.rule.onlyTranslates) = rules'.filter (!·.rule.onlyTranslates))
    (hl : ∀ r : Anchored, r.rule.letterCells alpha = true → (r ∈ rules ↔ r ∈ rules')) :
    (TableCtx.compile alpha rules).dots.Alike (TableCtx.compile alpha rules').dots := by
  intro k c
  rw [(compile_extends rules).dots, (compile_extends rules').dots, ho]
  simp only [mem_alwaysCells hl]

theorem filter_allowed {rules rules' : List Anchored} {q : Anchored → Bool} (d : Direction) (h : rules.filter q = rules'.filter q) :
    (allowedRules rules d).filter q = (allowedRules rules' d).filter q := by
  unfold allowedRules
  rw [List.filter_filter, List.filter_filter]
  have e : ∀ l : List Anchored, l.filter (fun r => q r && r.rule.isDirection d) = (l.filter q).filter (·.rule.isDirection d) := by
    intro l
    rw [List.filter_filter]
    exact List.filter_congr fun r _ => Bool.and_comm ..
  rw [e, e, h]

theorem SameOtherLines.alike {alpha : Char → Bool} {d : Direction} {rules rules' : List Anchored}
    (h : SameOtherLines alpha d rules rules') : (TableCtx.compile alpha rules).Alike d (TableCtx.compile alpha rules') := by
  have e : (TableCtx.compile alpha rules).noDots = (TableCtx.compile alpha rules').noDots := by
    rw [compile_noDots, compile_noDots, h.others]
  unfold TableCtx.noDots at e
  injection e with e1 e2 e3 e4
  refine ⟨e1, e2, e4, ?_⟩
  rintro rfl
  rcases h.letters with hl | hl
  · cases hl.1
  · exact compile_letterCells h.others hl

theorem SameOtherLines.allowed {alpha : Char → Bool} {d : Direction} {rules rules' : List Anchored}
    (h : SameOtherLines alpha d rules rules') : SameOtherLines alpha d (allowedRules rules d) (allowedRules rules' d) := by
  refine ⟨filter_allowed d h.others, ?_⟩
  rcases h.letters with h | h
  · exact .inl ⟨h.1, fun r hr => h.2 r (List.mem_filter.1 hr).1⟩
  · refine .inr fun r hr => ?_
    unfold allowedRules
    simp only [List.mem_filter, h r hr]

/-! ## The main stage of the two tables -/

theorem TableCtx.Alike.applyAll {d : Direction} {ctx ctx' : TableCtx} (h : ctx.Alike d ctx') (ops : List PrimOp) (t : PrimaryTable) :
    PrimaryTable.applyAll (ctx.prim d) ops t = PrimaryTable.applyAll (ctx'.prim d) ops t := by
  refine applyAll_dots h.classes h.swaps ?_ ops t
  cases d
  · show CharClasses.Alike ctx.classes ctx'.classes
    rw [h.classes]
    exact fun _ _ => Iff.rfl
  · exact h.dots rfl

theorem TableCtx.Alike.ops {d : Direction} {ctx ctx' : TableCtx} (h : ctx.Alike d ctx') (lit : List Char) (letterDots : List Text)
    (r : Anchored) : r.ops ctx d lit letterDots = r.ops ctx' d lit letterDots := by
  unfold Anchored.ops
  simp only [h.defs, h.classes]

theorem firstLoop_alike {d : Direction} {ctx ctx' : TableCtx} (h : ctx.Alike d ctx') : ∀ (rules : List Anchored)
    (s : PrimaryTable × Signs), firstLoop ctx d rules s = firstLoop ctx' d rules s
  | [], _ => rfl
  | r :: rules, (t, s) => by
    unfold firstLoop
    rw [h.applyAll]
    split
    · rfl
    · exact firstLoop_alike h rules _

theorem secondLoop_alike {sys : Sys} {d : Direction} {ctx ctx' : TableCtx} (h : ctx.Alike d ctx') {lit : List Char}
    {letterDots : List Text} : ∀ (rules : List Anchored) (s : PrimaryTable × Signs),
    secondLoop sys ctx d lit letterDots rules s = secondLoop sys ctx' d lit letterDots rules s
  | [], _ => rfl
  | r :: rules, (t, s) => by
    unfold secondLoop
    rw [h.ops, h.classes]
    split
    · rfl
    · rw [h.applyAll]
      split
      · rfl
      · split
        · rfl
        · exact secondLoop_alike h rules _

/-- The builders with canonical sets of cells. -/
def Signs.canon (s : Signs) : Signs := { s with capsDots := s.capsDots.canon, numDots := s.numDots.canon }

theorem finish_canon {sys : Sys} {d : Direction} {ctx ctx' : TableCtx} (h : ctx.Alike d ctx') {rules rules' : List Anchored}
    (ha : d = .backward → ∀ c, c ∈ alwaysCells sys.alpha rules ↔ c ∈ alwaysCells sys.alpha rules') (s : Signs) :
    (s.finish sys ctx d rules).canon = (s.finish sys ctx' d rules').canon := by
  unfold Signs.finish Signs.canon
  cases d
  · simp only [h.classes]
  · have hd := h.dots rfl
    have e1 : sortDedup (ctx.dots.members .letter ++ alwaysCells sys.alpha rules) =
        sortDedup (ctx'.dots.members .letter ++ alwaysCells sys.alpha rules') := by
      refine sortDedup_congr fun c => ?_
      rw [List.mem_append, List.mem_append, ha rfl c]
      unfold CharClasses.members
      rw [(hd.get _).2]
    have e2 : sortDedup (ctx.dots.members .digit ++ ctx.dots.members .litdigit) =
        sortDedup (ctx'.dots.members .digit ++ ctx'.dots.members .litdigit) := by
      refine sortDedup_congr fun c => ?_
      unfold CharClasses.members
      rw [List.mem_append, List.mem_append, (hd.get _).2, (hd.get _).2]
    simp only [h.classes, CapsDots.canon, NumDots.canon, e1, e2]

theorem indicators_alike {ctx ctx' : TableCtx} (h : ctx.classes = ctx'.classes) (s : Signs) : s.indicators ctx = s.indicators ctx' := by
  unfold Signs.indicators Signs.letIndicator Signs.nocIndicator contractionTrie
  simp only [h]

theorem indicators_canon {ctx : TableCtx} {s s' : Signs} (h : s.canon = s'.canon) : s.indicators ctx = s'.indicators ctx := by
  have e : ∀ s : Signs, s.indicators ctx = s.canon.indicators ctx := fun _ => rfl
  rw [e s, e s', h]

theorem constrainers_canon {ctx ctx' : TableCtx} (hc : ctx.classes = ctx'.classes) {d : Direction} {s s' : Signs} (h : s.canon = s'.canon) :
    (s.constrainers ctx d).canon = (s'.constrainers ctx' d).canon := by
  have e : ∀ s : Signs, (s.constrainers ctx' d).canon = s.canon.constrainers ctx' d := by
    intro s
    unfold Signs.constrainers Constrainers.canon Signs.canon
    simp only [CapsDots.canon, NumDots.canon]
    congr 1
    · by_cases hb : (s.capsDots.capsletter.isNone && s.capsDots.begcapsword.isNone) = true
      · simp only [hb, if_true, Option.map_none]
      · simp only [hb, Bool.false_eq_true, if_false, Option.map_some, CapsDots.canon]
    · by_cases hb : s.numDots.numsign.isNone = true
      · simp only [hb, if_true, Option.map_none]
      · simp only [hb, Bool.false_eq_true, if_false, Option.map_some, NumDots.canon]
  have e' : s.constrainers ctx d = s.constrainers ctx' d := by unfold Signs.constrainers; simp only [hc]
  rw [e', e s, e s', h]

theorem triggers_canon {s s' : Signs} (h : s.canon = s'.canon) : s.triggers = s'.triggers :=
  show s.canon.triggers = s'.canon.triggers by rw [h]

/-- The order in which the cells became letters does not matter. -/
theorem primary_alike {sys : Sys} {d : Direction} {ctx ctx' : TableCtx} (h : ctx.Alike d ctx') (rules : List Anchored) :
    (Primary.compile sys ctx d rules).map Primary.canon = (Primary.compile sys ctx' d rules).map Primary.canon := by
  unfold Primary.compile
  have e0 : PrimaryTable.new d (ctx.prim d) = PrimaryTable.new d (ctx'.prim d) := by
    unfold PrimaryTable.new TableCtx.prim
    simp only [h.defs]
  rw [firstLoop_alike h, e0]
  split
  · rfl
  · rw [secondLoop_alike h]
    split
    · rfl
    · have hf := fun s => finish_canon (sys := sys) h (rules := rules) (rules' := rules) (fun _ _ => Iff.rfl) s
      simp only [indicators_alike h.classes, indicators_canon (hf _)]
      split
      · rfl
      · simp only [Except.map, Primary.canon, constrainers_canon h.classes (hf _), triggers_canon (hf _), h.classes]

theorem finish_others {sys : Sys} {d : Direction} {ctx : TableCtx} {rules rules' : List Anchored}
    (h : SameOtherLines sys.alpha d rules rules') (s : Signs) : (s.finish sys ctx d rules).canon = (s.finish sys ctx d rules').canon := by
  refine finish_canon ⟨rfl, rfl, rfl, fun _ _ _ => Iff.rfl⟩ ?_ s
  rintro rfl c
  rcases h.letters with hl | hl
  · cases hl.1
  · exact mem_alwaysCells hl c

/-- The main stages of two tables that differ only in lines that translate pieces of text do the same with all texts whose words have
the same lines (for a suitable order of the hash maps). -/
theorem primary_same_lines {sys : Sys} {d : Direction} {ctx : TableCtx} {rules rules' : List Anchored} {p q q₀ : Primary}
    (ho : SameOtherLines sys.alpha d rules rules') (h : Primary.compile sys ctx d rules = .ok p) (hp : p.Same q)
    (h' : Primary.compile sys ctx d rules' = .ok q₀) :
    ∃ q', q₀.Same q' ∧ ∀ cs input, SameLinesFor cs.lower ctx.defs d rules rules' input →
      ∀ spans ts, q.Traces cs input spans ts ↔ q'.Traces cs input spans ts := by
  have m := compile_compiled h
  have m' := compile_compiled h'
  have inv := buildInv_all (buildInv_new _ _) m.table
  have inv' := buildInv_all (buildInv_new _ _) m'.table
  have hlit : litdigitChars d rules = litdigitChars d rules' := by
    rw [litdigitChars_others, ho.others, ← litdigitChars_others]
  have hlet : letterDotsOf d rules = letterDotsOf d rules' := by
    rw [letterDotsOf_others, ho.others, ← letterDotsOf_others]
  -- signs
  obtain ⟨s, hs, hi, hc, ht⟩ := m.signs
  obtain ⟨s', hs', hi', hc', ht'⟩ := m'.signs
  have es : s = s' := by
    rw [first_others, signsLoop_others, ho.others, ← first_others, ← signsLoop_others, hlet, hs'] at hs
    injection hs with hs
    exact hs.symm
  subst es
  have hf := finish_others (ctx := ctx) ho s
  have ei : p.indicators = q₀.indicators := by
    rw [indicators_canon hf, hi'] at hi; injection hi with hi; exact hi.symm
  have ec : p.constrainers.canon = q₀.constrainers.canon := by rw [hc, hc', constrainers_canon rfl hf]
  have et : p.triggers = q₀.triggers := by rw [ht, ht']
  -- everything but the dictionaries
  have hcore : p.table.core = q₀.table.core := by
    rw [applyAll_core m.table, applyAll_core m'.table, core_ops, core_ops, ho.others, hlit, hlet]
  -- the dictionaries
  have words : ∀ {g : PrimOp → Option TrieRule}, (∀ op e, g op = some e → (∃ b, opEntry d b op = some e) ∨ op = .comp6 e) →
      ∀ w, rules.filter (fun r => r.rule.reads ctx.defs d == some w) = rules'.filter (fun r => r.rule.reads ctx.defs d == some w) →
      ((tableOps ctx d rules).filterMap g).filter (fun e => e.from d == w) =
        ((tableOps ctx d rules').filterMap g).filter (fun e => e.from d == w) := by
    intro g hg w hw
    rw [entries_for hg, entries_for hg, hw, hlit, hlet]
  have dict : ∀ {rs : List TrieRule} {t t' : Trie}, Trie.insertAll (ctx.prim d).trieClasses d rs Trie.empty = some t → t.SameEntries t' →
      Dictionary (ctx.prim d).trieClasses d rs t' := fun a b => ⟨_, a, b⟩
  obtain ⟨t1, e1, f1⟩ := dictionary_agree (dict inv.trie hp.table.trie) inv'.trie
  obtain ⟨t2, e2, f2⟩ := dictionary_agree (dict inv.comp6 hp.table.comp6) inv'.comp6
  obtain ⟨t3, e3, f3⟩ := dictionary_agree (dict inv.nocross hp.table.nocross) inv'.nocross
  refine ⟨{ q₀ with table := { q₀.table with trie := t1, comp6 := t2, nocross := t3 }, indicators := q.indicators },
    ⟨⟨e1, e2, e3, rfl⟩, by rw [← ei]; exact hp.letsign, by rw [← ei]; exact hp.nocontract, ?_, rfl⟩, ?_⟩
  · rw [← ei]; exact hp.indicators
  · intro cs input hw spans ts
    have agree : Agree cs.lower input q.table { q₀.table with trie := t1, comp6 := t2, nocross := t3 } := by
      refine ⟨?_, f1 _ _ fun w hne hocc => ?_, f2 _ _ fun w hne hocc => ?_, f3 _ _ fun w hne hocc => ?_⟩
      · rw [hp.table.others]
        exact hcore
      · rw [trieRules_eq, trieRules_eq]
        exact words (fun op e h => .inl ⟨_, h⟩) w (hw w hne hocc)
      · unfold comp6Rules
        refine words (fun op e h => .inr ?_) w (hw w hne hocc)
        cases op <;> simp at h
        rw [h]
      · rw [nocrossRules_eq, nocrossRules_eq]
        exact words (fun op e h => .inl ⟨_, h⟩) w (hw w hne hocc)
    have eq1 : q.triggers = q₀.triggers := by rw [hp.others]; exact et
    have eq2 : ∀ input spans, q.constrainers.precompute input spans = q₀.constrainers.precompute input spans := by
      intro input spans
      have : q.constrainers = p.constrainers := by rw [hp.others]
      rw [this, ← Constrainers.precompute_canon, ec, Constrainers.precompute_canon]
    have eq3 : q.classes = q₀.classes := by rw [hp.others, m'.classes]; exact m.classes
    unfold Primary.Traces
    simp only [eq1, eq2, eq3, traces_agree agree]

/-! ## Translators -/

theorem traces_main {cs : Case} {spans : List Span} {x x' : Transform} {late : List Transform} : ∀ {early : List Transform}
    {input : Text} {tss : List (List Resolved)},
    (∀ text, Pipeline.Translates cs spans input early text → ∀ ts, x.Traces cs spans text ts ↔ x'.Traces cs spans text ts) →
    (Pipeline.Traces cs spans input (early ++ x :: late) tss ↔ Pipeline.Traces cs spans input (early ++ x' :: late) tss)
  | [], input, tss, h => by
    simp only [List.nil_append, Pipeline.Traces, h input rfl]
  | e :: early, input, tss, h => by
    simp only [List.cons_append, Pipeline.Traces]
    constructor
    · rintro ⟨ts, rest, rfl, h1, h2⟩
      exact ⟨ts, rest, rfl, h1, (traces_main fun text ht => h text ⟨_, ⟨ts, h1, rfl⟩, ht⟩).1 h2⟩
    · rintro ⟨ts, rest, rfl, h1, h2⟩
      exact ⟨ts, rest, rfl, h1, (traces_main fun text ht => h text ⟨_, ⟨ts, h1, rfl⟩, ht⟩).2 h2⟩

theorem postStage_same {ctx ctx' : TableCtx} {d : Direction} {stage : Stage} (hstage : stage = .post1 ∨ stage = .post2 ∨ stage = .post3)
    {L L' : List PassRule} (hL : L = L') (hs : ctx.swaps = ctx'.swaps) (h : ctx.dots.Alike ctx'.dots ∨ L = []) :
    (compileStage ctx d stage .post L).map (List.map Transform.canon) = (compileStage ctx' d stage .post L').map (List.map Transform.canon) := by
  subst hL
  rcases h with h | rfl
  · exact compileStage_canon h hs d hstage L
  · rfl

theorem passRules_none {k : PassKind} {rules : List Anchored} (hk : k = .pass2 ∨ k = .pass3 ∨ k = .pass4)
    (h : ∀ r ∈ rules, r.rule.cellPass = false) : passRules k rules = [] := by
  unfold passRules
  rw [List.filterMap_eq_nil_iff]
  intro r hr
  have := h r hr
  cases e : r.rule <;> try rfl
  rw [e] at this
  rename_i k' test action cons
  simp only
  split
  · next hkk =>
    subst hkk
    rcases hk with rfl | rfl | rfl <;> cases this
  · rfl

/-- The stages before the main stage. -/
def earlyOf (d : Direction) (correct pass2 pass3 pass4 : List Transform) : List Transform :=
  match d with
  | .forward => correct
  | .backward => (pass2 ++ pass3 ++ pass4).reverse

/-- The stages after the main stage. -/
def lateOf (d : Direction) (correct pass2 pass3 pass4 : List Transform) : List Transform :=
  match d with
  | .forward => pass2 ++ pass3 ++ pass4
  | .backward => correct.reverse

theorem inOrder_split (d : Direction) (correct pass2 pass3 pass4 : List Transform) (x : Primary) :
    inOrder d (correct ++ [.primary x] ++ pass2 ++ pass3 ++ pass4) =
      earlyOf d correct pass2 pass3 pass4 ++ .primary x :: lateOf d correct pass2 pass3 pass4 := by
  cases d <;> simp [inOrder, earlyOf, lateOf]

theorem mem_early_late {d : Direction} {correct pass2 pass3 pass4 : List Transform} {x : Transform}
    (h : x ∈ earlyOf d correct pass2 pass3 pass4 ++ lateOf d correct pass2 pass3 pass4) : x ∈ correct ++ pass2 ++ pass3 ++ pass4 := by
  cases d <;> simp only [earlyOf, lateOf, List.mem_append, List.mem_reverse] at h ⊢ <;> grind

theorem steps_parts {d : Direction} {correct pass2 pass3 pass4 steps : List Transform} {p : Primary}
    (hn : ∀ x ∈ correct ++ pass2 ++ pass3 ++ pass4, ∃ t, x = .pre t ∨ x = .post t)
    (h : SameSteps (inOrder d (correct ++ [.primary p] ++ pass2 ++ pass3 ++ pass4)) steps) :
    ∃ q, p.Same q ∧ steps = earlyOf d correct pass2 pass3 pass4 ++ .primary q :: lateOf d correct pass2 pass3 pass4 := by
  rw [inOrder_split] at h
  have hx := fun x hx => hn x (mem_early_late (d := d) hx)
  obtain ⟨b, y, rfl, h1, h2⟩ := SameSteps.split h
  cases h2 with
  | cons hq h3 =>
    cases hq with
    | primary hq =>
      refine ⟨_, hq, ?_⟩
      rw [h1.same fun x hm => hx x (List.mem_append_left _ hm), h3.same fun x hm => hx x (List.mem_append_right _ hm)]

theorem steps_split {d : Direction} {correct pass2 pass3 pass4 steps : List Transform} {p : Primary}
    (hn : ∀ x ∈ correct ++ pass2 ++ pass3 ++ pass4, ∃ t, x = .pre t ∨ x = .post t)
    (h : SameSteps (inOrder d (correct ++ [.primary p] ++ pass2 ++ pass3 ++ pass4)) steps) :
    ∃ early late q, p.Same q ∧ (∀ x, inOrder d (correct ++ [.primary x] ++ pass2 ++ pass3 ++ pass4) = early ++ .primary x :: late) ∧
      steps = early ++ .primary q :: late ∧ (∀ x ∈ early ++ late, ∃ t, x = .pre t ∨ x = .post t) := by
  obtain ⟨q, hq, rfl⟩ := steps_parts hn h
  exact ⟨_, _, q, hq, inOrder_split d correct pass2 pass3 pass4, rfl, fun x hx => hn x (mem_early_late (d := d) hx)⟩

theorem stages_other {ctx : TableCtx} {d : Direction} {L1 L2 L3 L4 : List PassRule} {correct pass2 pass3 pass4 : List Transform}
    (c1 : compileStage ctx d .pre .pre L1 = .ok correct) (c2 : compileStage ctx d .post1 .post L2 = .ok pass2)
    (c3 : compileStage ctx d .post2 .post L3 = .ok pass3) (c4 : compileStage ctx d .post3 .post L4 = .ok pass4) :
    ∀ x ∈ correct ++ pass2 ++ pass3 ++ pass4, ∃ t, x = Transform.pre t ∨ x = .post t := by
  have key : ∀ {stage : Stage} {wrap : MultipassTable → Transform} {L : List PassRule} {xs : List Transform},
      compileStage ctx d stage wrap L = .ok xs → ∀ x ∈ xs, ∃ t, x = wrap t := by
    intro stage wrap L xs h x hx
    unfold compileStage at h
    split at h
    · cases h; cases hx
    · split at h
      · cases h
      · cases h
        exact ⟨_, List.mem_singleton.1 hx⟩
  intro x hx
  simp only [List.mem_append] at hx
  rcases hx with ((hx | hx) | hx) | hx
  · obtain ⟨t, e⟩ := key c1 x hx; exact ⟨t, .inl e⟩
  · obtain ⟨t, e⟩ := key c2 x hx; exact ⟨t, .inr e⟩
  · obtain ⟨t, e⟩ := key c3 x hx; exact ⟨t, .inr e⟩
  · obtain ⟨t, e⟩ := key c4 x hx; exact ⟨t, .inr e⟩

theorem same_of_canon {p p₁ q : Primary} (h : p.canon = p₁.canon) (hq : p.Same q) :
    p₁.Same { q with constrainers := p₁.constrainers } ∧ ({ q with constrainers := p₁.constrainers } : Primary).canon = q.canon := by
  obtain ⟨t, i, c, g, k⟩ := p
  obtain ⟨t₁, i₁, c₁, g₁, k₁⟩ := p₁
  simp only [Primary.canon, Primary.mk.injEq] at h
  obtain ⟨rfl, rfl, hc, rfl, rfl⟩ := h
  obtain ⟨h1, h2, h3, h4, h5⟩ := hq
  obtain ⟨tq, iq, cq, gq, kq⟩ := q
  simp only [Primary.mk.injEq, true_and] at h5
  obtain ⟨rfl, rfl, rfl⟩ := h5
  exact ⟨⟨h1, h2, h3, h4, rfl⟩, by simp only [Primary.canon, hc]⟩

/-- **C76.** Two tables that have the same lines in the same order, except for lines that only tell how a piece of text is
translated, are the same for every text whose words have the same lines in both: whatever translator one of them compiles to, the
other compiles to a translator that does exactly the same with all these texts, stage by stage. -/
theorem C76_same_lines (sys : Sys) (d : Direction) (rules rules' : List Anchored) (ho : SameOtherLines sys.alpha d rules rules')
    (steps : List Transform) (h : Pipeline.Compiles sys rules d steps) (h' : ∃ steps₀, Pipeline.compile sys rules' d = .ok steps₀) :
    ∃ steps', Pipeline.Compiles sys rules' d steps' ∧ ∀ cs spans input,
      (∀ text, MainInput cs spans input steps text →
        SameLinesFor cs.lower (TableCtx.compile sys.alpha (allowedRules rules d)).defs d (allowedRules rules d) (allowedRules rules' d) text) →
      ∀ tss, Pipeline.Traces cs spans input steps tss ↔ Pipeline.Traces cs spans input steps' tss := by
  obtain ⟨s₀, h, hs⟩ := h
  obtain ⟨s₁, h'⟩ := h'
  obtain ⟨correct, p, pass2, pass3, pass4, c1, cp, c2, c3, c4, rfl⟩ := compile_parts h
  obtain ⟨correct', p₁, pass2', pass3', pass4', c1', cp', c2', c3', c4', rfl⟩ := compile_parts h'
  have hal := ho.alike
  have hoa := ho.allowed
  have hpass : ∀ k, passRules k (allowedRules rules d) = passRules k (allowedRules rules' d) := by
    intro k; rw [passRules_others, hoa.others, ← passRules_others]
  have hctx : ∀ {k}, (k = .pass2 ∨ k = .pass3 ∨ k = .pass4) →
      (TableCtx.compile sys.alpha rules).dots.Alike (TableCtx.compile sys.alpha rules').dots ∨ passRules k (allowedRules rules d) = [] := by
    intro k hk
    rcases ho.letters with hl | hl
    · exact .inr (passRules_none hk fun r hr => hl.2 r (List.mem_filter.1 hr).1)
    · exact .inl (compile_letterCells ho.others hl)
  have e1 : correct = correct' := by
    have : compileStage (TableCtx.compile sys.alpha rules) d .pre .pre (passRules .correct (allowedRules rules d)) =
        compileStage (TableCtx.compile sys.alpha rules') d .pre .pre (passRules .correct (allowedRules rules' d)) := by
      rw [hpass]
      unfold compileStage TableCtx.stageClasses
      simp only [hal.classes, hal.swaps]
    rw [c1, c1'] at this
    injection this
  have e2 : pass2.map Transform.canon = pass2'.map Transform.canon := by
    have := postStage_same (d := d) (.inl rfl) (hpass _) hal.swaps (hctx (.inl rfl))
    rw [c2, c2'] at this
    simpa [Except.map] using this
  have e3 : pass3.map Transform.canon = pass3'.map Transform.canon := by
    have := postStage_same (d := d) (.inr (.inl rfl)) (hpass _) hal.swaps (hctx (.inr (.inl rfl)))
    rw [c3, c3'] at this
    simpa [Except.map] using this
  have e4 : pass4.map Transform.canon = pass4'.map Transform.canon := by
    have := postStage_same (d := d) (.inr (.inr rfl)) (hpass _) hal.swaps (hctx (.inr (.inr rfl)))
    rw [c4, c4'] at this
    simpa [Except.map] using this
  subst e1
  have hn := stages_other c1 c2 c3 c4
  have hn' := stages_other c1' c2' c3' c4'
  obtain ⟨q, hq, rfl⟩ := steps_parts hn hs
  have halike := primary_alike (sys := sys) hoa.alike (allowedRules rules' d)
  rw [cp'] at halike
  obtain ⟨p₂, cp₂, hp₂⟩ := map_ok_iff.1 halike
  obtain ⟨q₂, hq₂, key⟩ := primary_same_lines hoa cp hq cp₂
  obtain ⟨hq', hcan⟩ := same_of_canon hp₂ hq₂
  refine ⟨earlyOf d correct pass2' pass3' pass4' ++ .primary { q₂ with constrainers := p₁.constrainers } ::
    lateOf d correct pass2' pass3' pass4', ⟨_, h', ?_⟩, fun cs spans input hw tss => ?_⟩
  · rw [inOrder_split]
    have refl : ∀ {l : List Transform}, (∀ x ∈ l, ∃ t, x = Transform.pre t ∨ x = .post t) → SameSteps l l := fun hl =>
      sameSteps_refl fun p hp => by
        obtain ⟨t, e | e⟩ := hl _ hp <;> cases e
    have hx := fun x hx => hn' x (mem_early_late (d := d) hx)
    exact (refl fun x hm => hx x (List.mem_append_left _ hm)).append
      (.cons (.primary hq') (refl fun x hm => hx x (List.mem_append_right _ hm)))
  · have emap : (earlyOf d correct pass2 pass3 pass4 ++ .primary q₂ :: lateOf d correct pass2 pass3 pass4).map Transform.canon =
        (earlyOf d correct pass2' pass3' pass4' ++ .primary { q₂ with constrainers := p₁.constrainers } ::
          lateOf d correct pass2' pass3' pass4').map Transform.canon := by
      have hc : Transform.canon (.primary q₂) = Transform.canon (.primary { q₂ with constrainers := p₁.constrainers }) := by
        simp only [Transform.canon, hcan]
      cases d <;> simp [earlyOf, lateOf, e2, e3, e4, hc]
    rw [← traces_canon cs spans (earlyOf d correct pass2' pass3' pass4' ++ _ :: lateOf d correct pass2' pass3' pass4'), ← emap, traces_canon]
    refine traces_main fun text ht ts => ?_
    exact key cs text (hw text ⟨_, q, _, rfl, ht⟩) spans ts

/-! ## Compiling a table with fewer lines, or with the same lines in another order -/

theorem insert_any {ctx : CharClasses} {d : Direction} {r : TrieRule} {t t' : Trie} (h : orPanic (t.insert ctx d r) = .ok t') (u : Trie) :
    ∃ u', orPanic (u.insert ctx d r) = .ok u' := by
  unfold Trie.insert orPanic at *
  split at h
  · next e =>
    split at e
    · cases e
    · next hne => rw [if_neg hne]; exact ⟨_, rfl⟩
  · cases h

/-- Whether an operation succeeds does not depend on the operations before it. -/
theorem apply_any {ctx : PrimCtx} {op : PrimOp} {t t' u : PrimaryTable} (h : t.apply ctx op = .ok t') (hu : u.direction = t.direction) :
    ∃ u', u.apply ctx op = .ok u' ∧ u'.direction = u.direction := by
  obtain ⟨a1, a2, dir, a4, a5, a6, a7, a8, a9, a10⟩ := t
  obtain ⟨b1, b2, dir', b4, b5, b6, b7, b8, b9, b10⟩ := u
  cases hu
  unfold PrimaryTable.apply at h ⊢
  cases op with
  | char c dots prec origin =>
    cases dir
    · exact ⟨_, rfl, rfl⟩
    · simp only at h ⊢
      split at h
      · cases h
      · next e => obtain ⟨u', e'⟩ := insert_any e b5; rw [e']; exact ⟨_, rfl, rfl⟩
  | rule n r =>
    cases n <;> simp only at h ⊢ <;> split at h
    · cases h
    · next e => obtain ⟨u', e'⟩ := insert_any e b5; rw [e']; exact ⟨_, rfl, rfl⟩
    · cases h
    · next e => obtain ⟨u', e'⟩ := insert_any e b7; rw [e']; exact ⟨_, rfl, rfl⟩
  | comp6 r =>
    simp only at h ⊢
    split at h
    · cases h
    · next e => obtain ⟨u', e'⟩ := insert_any e b6; rw [e']; exact ⟨_, rfl, rfl⟩
  | matchRule pre chars post to origin =>
    simp only at h ⊢
    split at h
    · cases h
    · exact ⟨_, rfl, rfl⟩
  | context test action origin =>
    simp only at h ⊢
    split at h
    · cases h
    · exact ⟨_, rfl, rfl⟩
  | undefined dots => exact ⟨_, rfl, rfl⟩
  | digitOverride cell character origin => exact ⟨_, rfl, rfl⟩

theorem applyAll_mem {ctx : PrimCtx} : ∀ {ops : List PrimOp} {t t' : PrimaryTable}, PrimaryTable.applyAll ctx ops t = .ok t' →
    ∀ op ∈ ops, ∃ s s' : PrimaryTable, s.direction = t.direction ∧ s.apply ctx op = .ok s'
  | [], _, _, _, _, h => by cases h
  | op :: ops, t, t', h, x, hx => by
    unfold PrimaryTable.applyAll at h
    split at h
    · cases h
    · next t₁ h₁ =>
      rcases List.mem_cons.1 hx with rfl | hx
      · exact ⟨t, t₁, rfl, h₁⟩
      · obtain ⟨s, s', e, hs⟩ := applyAll_mem h x hx
        obtain ⟨u', e', hd⟩ := apply_any h₁ rfl
        rw [h₁] at e'
        injection e' with e'
        subst e'
        exact ⟨s, s', e.trans hd, hs⟩

theorem applyAll_any {ctx : PrimCtx} : ∀ {ops : List PrimOp} (u : PrimaryTable),
    (∀ op ∈ ops, ∃ s s' : PrimaryTable, s.direction = u.direction ∧ s.apply ctx op = .ok s') →
    ∃ u', PrimaryTable.applyAll ctx ops u = .ok u' ∧ u'.direction = u.direction
  | [], u, _ => ⟨u, rfl, rfl⟩
  | op :: ops, u, h => by
    obtain ⟨s, s', hd, hs⟩ := h op (List.mem_cons_self ..)
    obtain ⟨u₁, h₁, hd₁⟩ := apply_any hs hd.symm
    unfold PrimaryTable.applyAll
    rw [h₁]
    obtain ⟨u', h', hd'⟩ := applyAll_any u₁ fun x hx => by
      obtain ⟨s, s', hd, hs⟩ := h x (List.mem_cons_of_mem _ hx)
      exact ⟨s, s', hd.trans hd₁.symm, hs⟩
    exact ⟨u', h', hd'.trans hd₁⟩

theorem firstLoop_any {ctx : TableCtx} {d : Direction} : ∀ {rules : List Anchored} (t : PrimaryTable) (s : Signs),
    (∀ r ∈ rules, ∀ op ∈ r.firstOps, ∃ u u' : PrimaryTable, u.direction = t.direction ∧ u.apply (ctx.prim d) op = .ok u') →
    ∃ t', firstLoop ctx d rules (t, s) = .ok (t', rules.foldl Signs.first s) ∧ t'.direction = t.direction
  | [], t, s, _ => ⟨t, rfl, rfl⟩
  | r :: rules, t, s, h => by
    obtain ⟨t₁, h₁, hd⟩ := applyAll_any t (h r (List.mem_cons_self ..))
    unfold firstLoop
    rw [h₁]
    obtain ⟨t', h', hd'⟩ := firstLoop_any (rules := rules) t₁ (s.first r) fun x hx op hop => by
      rw [hd]; exact h x (List.mem_cons_of_mem _ hx) op hop
    exact ⟨t', h', hd'.trans hd⟩

theorem secondLoop_any {sys : Sys} {ctx : TableCtx} {d : Direction} {lit : List Char} {letterDots : List Text} :
    ∀ {rules : List Anchored} (t : PrimaryTable) {s s' : Signs}, (∀ r ∈ rules, ∃ ops, r.ops ctx d lit letterDots = .ok ops) →
    (∀ r ∈ rules, ∀ op ∈ r.opsD ctx d lit letterDots,
      ∃ u u' : PrimaryTable, u.direction = t.direction ∧ u.apply (ctx.prim d) op = .ok u') →
    signsLoop sys ctx.classes d letterDots rules s = .ok s' → ∃ t', secondLoop sys ctx d lit letterDots rules (t, s) = .ok (t', s')
  | [], t, s, s', _, _, h => by cases h; exact ⟨t, rfl⟩
  | r :: rules, t, s, s', ho, h, hs => by
    obtain ⟨ops, hops⟩ := ho r (List.mem_cons_self ..)
    have e : r.opsD ctx d lit letterDots = ops := by unfold Anchored.opsD; rw [hops]; rfl
    obtain ⟨t₁, h₁, hd⟩ := applyAll_any t (h r (List.mem_cons_self ..))
    rw [e] at h₁
    unfold secondLoop
    unfold signsLoop at hs
    rw [hops]
    simp only [h₁]
    split at hs
    · cases hs
    · next s₁ hs₁ =>
      rw [hs₁]
      exact secondLoop_any t₁ (fun x hx => ho x (List.mem_cons_of_mem _ hx))
        (fun x hx op hop => by rw [hd]; exact h x (List.mem_cons_of_mem _ hx) op hop) hs

/-- A table with some of the lines of a table that compiles, in any order, compiles, if all lines are kept that do not only translate
a piece of text. -/
theorem compile_fewer {sys : Sys} {d : Direction} {rules rules' : List Anchored} (ho : SameOtherLines sys.alpha d rules rules')
    (hsub : ∀ r ∈ rules', r ∈ rules) {steps : List Transform} (h : Pipeline.compile sys rules d = .ok steps) :
    ∃ steps', Pipeline.compile sys rules' d = .ok steps' := by
  obtain ⟨correct, p, pass2, pass3, pass4, c1, cp, c2, c3, c4, rfl⟩ := compile_parts h
  have hal := ho.alike
  have hoa := ho.allowed
  have hpass : ∀ k, passRules k (allowedRules rules d) = passRules k (allowedRules rules' d) := by
    intro k; rw [passRules_others, hoa.others, ← passRules_others]
  have hctx : ∀ {k}, (k = .pass2 ∨ k = .pass3 ∨ k = .pass4) →
      (TableCtx.compile sys.alpha rules).dots.Alike (TableCtx.compile sys.alpha rules').dots ∨ passRules k (allowedRules rules d) = [] := by
    intro k hk
    rcases ho.letters with hl | hl
    · exact .inr (passRules_none hk fun r hr => hl.2 r (List.mem_filter.1 hr).1)
    · exact .inl (compile_letterCells ho.others hl)
  have e1 : compileStage (TableCtx.compile sys.alpha rules') d .pre .pre (passRules .correct (allowedRules rules' d)) = .ok correct := by
    rw [← c1, hpass]
    unfold compileStage TableCtx.stageClasses
    simp only [hal.classes, hal.swaps]
  have a2 := postStage_same (d := d) (.inl rfl) (hpass _) hal.swaps (hctx (.inl rfl))
  have a3 := postStage_same (d := d) (.inr (.inl rfl)) (hpass _) hal.swaps (hctx (.inr (.inl rfl)))
  have a4 := postStage_same (d := d) (.inr (.inr rfl)) (hpass _) hal.swaps (hctx (.inr (.inr rfl)))
  rw [c2] at a2
  rw [c3] at a3
  rw [c4] at a4
  obtain ⟨pass2', c2', -⟩ := map_ok_iff.1 a2.symm
  obtain ⟨pass3', c3', -⟩ := map_ok_iff.1 a3.symm
  obtain ⟨pass4', c4', -⟩ := map_ok_iff.1 a4.symm
  have hp : ∃ q, Primary.compile sys (TableCtx.compile sys.alpha (allowedRules rules' d)) d (allowedRules rules' d) = .ok q := by
    have halike := primary_alike (sys := sys) hoa.alike (allowedRules rules' d)
    suffices hp : ∃ q, Primary.compile sys (TableCtx.compile sys.alpha (allowedRules rules d)) d (allowedRules rules' d) = .ok q by
      obtain ⟨q, hq⟩ := hp
      rw [hq] at halike
      obtain ⟨q', hq', -⟩ := map_ok_iff.1 halike.symm
      exact ⟨q', hq'⟩
    clear halike
    have hsub' : ∀ r ∈ allowedRules rules' d, r ∈ allowedRules rules d := by
      intro r hr
      unfold allowedRules at hr ⊢
      rw [List.mem_filter] at hr ⊢
      exact ⟨hsub r hr.1, hr.2⟩
    generalize hctxe : TableCtx.compile sys.alpha (allowedRules rules d) = ctx at cp
    generalize allowedRules rules d = R at cp hoa hsub'
    generalize allowedRules rules' d = R' at hoa hsub'
    have m := compile_compiled cp
    have hlit : litdigitChars d R = litdigitChars d R' := by
      rw [litdigitChars_others, hoa.others, ← litdigitChars_others]
    have hlet : letterDotsOf d R = letterDotsOf d R' := by
      rw [letterDotsOf_others, hoa.others, ← letterDotsOf_others]
    obtain ⟨s, hs, hi, -, -⟩ := m.signs
    have hops := m.ops
    have hall := applyAll_mem m.table
    rw [hlit, hlet] at hops
    have f1 : ∀ r ∈ R', ∀ op ∈ r.firstOps, ∃ u u' : PrimaryTable, u.direction = d ∧ u.apply (ctx.prim d) op = .ok u' := by
      intro r hr op hop
      exact hall op (List.mem_append_left _ (List.mem_flatMap.2 ⟨r, hsub' r hr, hop⟩))
    have f2 : ∀ r ∈ R', ∀ op ∈ r.opsD ctx d (litdigitChars d R') (letterDotsOf d R'),
        ∃ u u' : PrimaryTable, u.direction = d ∧ u.apply (ctx.prim d) op = .ok u' := by
      intro r hr op hop
      rw [← hlit, ← hlet] at hop
      exact hall op (List.mem_append_right _ (List.mem_flatMap.2 ⟨r, hsub' r hr, hop⟩))
    obtain ⟨t₁, h₁, hd₁⟩ := firstLoop_any (ctx := ctx) (d := d) (PrimaryTable.new d (ctx.prim d)) Signs.new f1
    have hd₁' : t₁.direction = d := hd₁
    rw [first_others, signsLoop_others, hoa.others, ← first_others, ← signsLoop_others, hlet] at hs
    obtain ⟨t₂, h₂⟩ := secondLoop_any (sys := sys) t₁ (fun r hr => hops r (hsub' r hr)) (by rw [hd₁']; exact f2) hs
    unfold Primary.compile
    rw [h₁]
    simp only [h₂]
    rw [indicators_canon (finish_others hoa s)] at hi
    rw [hi]
    exact ⟨_, rfl⟩
  obtain ⟨q, hq⟩ := hp
  unfold Pipeline.compile
  have a1 := e1
  unfold allowedRules at a1 hq c2' c3' c4'
  simp only [a1, hq, c2', c3', c4']
  exact ⟨_, rfl⟩

/-! ## Lines that can be left out, and lines that can be exchanged -/

theorem sameOther_symm {alpha : Char → Bool} {d : Direction} {rules rules' : List Anchored} (h : SameOtherLines alpha d rules rules') :
    SameOtherLines alpha d rules' rules := by
  refine ⟨h.others.symm, ?_⟩
  rcases h.letters with hl | hl
  · refine .inl ⟨hl.1, fun r hr => ?_⟩
    cases hc : r.rule.onlyTranslates
    · have : r ∈ rules'.filter (!·.rule.onlyTranslates) := List.mem_filter.2 ⟨hr, by simp [hc]⟩
      rw [← h.others] at this
      exact hl.2 r (List.mem_filter.1 this).1
    · cases e : r.rule <;> first | rfl | (rw [e] at hc; cases hc)
  · exact .inr fun r hr => (hl r hr).symm

theorem filter_kept {α : Type} {q keep : α → Bool} (l : List α) (h : ∀ a ∈ l, keep a = false → q a = false) :
    (l.filter keep).filter q = l.filter q := by
  rw [List.filter_filter]
  refine List.filter_congr fun a ha => ?_
  cases hk : keep a
  · simp [h a ha hk]
  · simp

theorem sameOther_kept {alpha : Char → Bool} {d : Direction} {rules : List Anchored} {keep : Anchored → Bool}
    (hdrop : ∀ r ∈ rules, keep r = false → MayBeLeftOut alpha d rules r) : SameOtherLines alpha d rules (rules.filter keep) := by
  refine ⟨(filter_kept rules fun r hr hk => ?_).symm, ?_⟩
  · simp [(hdrop r hr hk).1]
  · by_cases hc : d = .forward ∧ ∀ x ∈ rules, x.rule.cellPass = false
    · exact .inl hc
    · refine .inr fun r hr => ⟨fun hm => List.mem_filter.2 ⟨hm, ?_⟩, fun hm => (List.mem_filter.1 hm).1⟩
      cases hk : keep r
      · have := (hdrop r hm hk).2.resolve_left hc
        rw [hr] at this
        cases this
      · rfl

theorem sameLines_kept {lower : Char → List Char} {defs : CharDefs} {d : Direction} {rules : List Anchored} {keep : Anchored → Bool}
    {text : Text} (h : ∀ r ∈ allowedRules rules d, keep r = false → ∀ word, r.rule.reads defs d = some word → ¬Occurs lower text word) :
    SameLinesFor lower defs d (allowedRules rules d) (allowedRules (rules.filter keep) d) text := by
  intro word _ hocc
  have e : allowedRules (rules.filter keep) d = (allowedRules rules d).filter keep := by
    unfold allowedRules
    rw [List.filter_filter, List.filter_filter]
    exact List.filter_congr fun r _ => Bool.and_comm ..
  rw [e]
  refine (filter_kept _ fun r hr hk => ?_).symm
  apply Bool.eq_false_iff.2
  intro hw
  exact h r hr hk word (by simpa using hw) hocc

/-- **C76.** Lines for pieces of text that do not occur can be left out: the table still compiles, and to a translator that does the
same with all texts in which none of these pieces occurs. -/
theorem C76_unused_lines (sys : Sys) (d : Direction) (rules : List Anchored) (keep : Anchored → Bool)
    (hdrop : ∀ r ∈ rules, keep r = false → MayBeLeftOut sys.alpha d rules r)
    (steps : List Transform) (h : Pipeline.Compiles sys rules d steps) :
    ∃ steps', Pipeline.Compiles sys (rules.filter keep) d steps' ∧ ∀ cs spans input,
      (∀ text, MainInput cs spans input steps text → ∀ r ∈ allowedRules rules d, keep r = false →
        ∀ word, r.rule.reads (TableCtx.compile sys.alpha (allowedRules rules d)).defs d = some word → ¬Occurs cs.lower text word) →
      ∀ tss, Pipeline.Traces cs spans input steps tss ↔ Pipeline.Traces cs spans input steps' tss := by
  have ho := sameOther_kept hdrop
  have hc : ∃ s, Pipeline.compile sys (rules.filter keep) d = .ok s := by
    obtain ⟨s₀, h, -⟩ := h
    exact compile_fewer ho (fun r hr => (List.mem_filter.1 hr).1) h
  obtain ⟨steps', h1, h2⟩ := C76_same_lines sys d rules (rules.filter keep) ho steps h hc
  exact ⟨steps', h1, fun cs spans input hw => h2 cs spans input fun text ht => sameLines_kept (hw text ht)⟩

/-- **C76**, the other way round: adding lines for pieces of text that do not occur (to a table that still compiles) changes nothing. -/
theorem C76_added_lines (sys : Sys) (d : Direction) (rules : List Anchored) (keep : Anchored → Bool)
    (hadd : ∀ r ∈ rules, keep r = false → MayBeLeftOut sys.alpha d rules r)
    (hc : ∃ s, Pipeline.compile sys rules d = .ok s)
    (steps : List Transform) (h : Pipeline.Compiles sys (rules.filter keep) d steps) :
    ∃ steps', Pipeline.Compiles sys rules d steps' ∧ ∀ cs spans input,
      (∀ text, MainInput cs spans input steps text → ∀ r ∈ allowedRules rules d, keep r = false →
        ∀ word, r.rule.reads (TableCtx.compile sys.alpha (allowedRules rules d)).defs d = some word → ¬Occurs cs.lower text word) →
      ∀ tss, Pipeline.Traces cs spans input steps tss ↔ Pipeline.Traces cs spans input steps' tss := by
  have ho := sameOther_kept hadd
  obtain ⟨steps', h1, h2⟩ := C76_same_lines sys d (rules.filter keep) rules (sameOther_symm ho) steps h hc
  refine ⟨steps', h1, fun cs spans input hw => h2 cs spans input fun text ht word hne hocc => ?_⟩
  rw [← ho.allowed.alike.defs]
  exact (sameLines_kept (hw text ht) word hne hocc).symm

/-- **C77.** Two neighbouring lines for different pieces of text can be exchanged, if one of them only translates its piece: the table
still compiles, and to a translator that does the same with all texts. -/
theorem C77_exchange (sys : Sys) (d : Direction) (a b : List Anchored) (x y : Anchored)
    (hx : x.rule.onlyTranslates = true ∨ y.rule.onlyTranslates = true)
    (hne : ∀ word, x.rule.reads (TableCtx.compile sys.alpha (allowedRules (a ++ x :: y :: b) d)).defs d = some word →
      y.rule.reads (TableCtx.compile sys.alpha (allowedRules (a ++ x :: y :: b) d)).defs d ≠ some word)
    (steps : List Transform) (h : Pipeline.Compiles sys (a ++ x :: y :: b) d steps) :
    ∃ steps', Pipeline.Compiles sys (a ++ y :: x :: b) d steps' ∧ ∀ cs spans input tss,
      Pipeline.Traces cs spans input steps tss ↔ Pipeline.Traces cs spans input steps' tss := by
  have swap : ∀ q : Anchored → Bool, (q x = false ∨ q y = false) → (a ++ x :: y :: b).filter q = (a ++ y :: x :: b).filter q := by
    intro q hq
    simp only [List.filter_append, List.filter_cons]
    rcases hq with hq | hq <;> simp [hq]
  have ho : SameOtherLines sys.alpha d (a ++ x :: y :: b) (a ++ y :: x :: b) := by
    refine ⟨swap _ (hx.imp (by simp [·]) (by simp [·])), ?_⟩
    refine .inr fun r _ => ?_
    simp only [List.mem_append, List.mem_cons]
    grind
  have hmem : ∀ r, r ∈ a ++ y :: x :: b → r ∈ a ++ x :: y :: b := by
    intro r hr
    simp only [List.mem_append, List.mem_cons] at hr ⊢
    grind
  have hc : ∃ s, Pipeline.compile sys (a ++ y :: x :: b) d = .ok s := by
    obtain ⟨s₀, h, -⟩ := h
    exact compile_fewer ho hmem h
  obtain ⟨steps', h1, h2⟩ := C76_same_lines sys d _ _ ho steps h hc
  refine ⟨steps', h1, fun cs spans input => h2 cs spans input fun text _ word _ _ => ?_⟩
  refine filter_allowed d (swap _ ?_)
  by_cases hw : x.rule.reads (TableCtx.compile sys.alpha (allowedRules (a ++ x :: y :: b) d)).defs d = some word
  · right
    simpa using hne word hw
  · left
    simpa using hw

/-- The main stage gets the text itself if there is no stage before it. -/
theorem mainInput_self {sys : Sys} {d : Direction} {rules : List Anchored} {steps : List Transform} (h : Pipeline.Compiles sys rules d steps)
    (hno : ∀ r ∈ rules, ∀ k test action cons, r.rule = .pass k test action cons →
      match d with | .forward => k ≠ .correct | .backward => k = .correct ∨ k = .context)
    {cs : Case} {spans : List Span} {input text : Text} (hm : MainInput cs spans input steps text) : text = input := by
  obtain ⟨s₀, h, hs⟩ := h
  obtain ⟨correct, p, pass2, pass3, pass4, c1, cp, c2, c3, c4, rfl⟩ := compile_parts h
  have hn : ∀ x ∈ correct ++ pass2 ++ pass3 ++ pass4, ∃ t, x = Transform.pre t ∨ x = .post t := by
    intro x hx
    simp only [List.mem_append] at hx
    rcases hx with ((hx | hx) | hx) | hx
    · obtain ⟨t, e, -⟩ := (stageOf c1).mem x hx; exact ⟨t, .inl e⟩
    · obtain ⟨t, e, -⟩ := (stageOf c2).mem x hx; exact ⟨t, .inr e⟩
    · obtain ⟨t, e, -⟩ := (stageOf c3).mem x hx; exact ⟨t, .inr e⟩
    · obtain ⟨t, e, -⟩ := (stageOf c4).mem x hx; exact ⟨t, .inr e⟩
  obtain ⟨early, late, q, -, he, rfl, hx⟩ := steps_split hn hs
  have hearly : early = [] := by
    cases d
    · have : correct = [] := (stageOf c1).absent fun r hr _ test action cons e => hno r hr _ _ _ _ e rfl
      have h1 := he p
      rw [this] at h1
      simp only [inOrder, List.nil_append, List.cons_append] at h1
      cases early with
      | nil => rfl
      | cons a early =>
        injection h1 with h1 _
        obtain ⟨t, e | e⟩ := hx a (by simp) <;> rw [e] at h1 <;> cases h1
    · have n : ∀ k, k = PassKind.pass2 ∨ k = .pass3 ∨ k = .pass4 → ∀ r ∈ rules, r.rule.AllowedIn .backward →
          ∀ test action cons, r.rule ≠ .pass k test action cons := by
        intro k hk r hr _ test action cons e
        rcases hno r hr _ _ _ _ e with h | h <;> subst h <;> rcases hk with hk | hk | hk <;> cases hk
      rw [(stageOf c2).absent (n _ (.inl rfl)), (stageOf c3).absent (n _ (.inr (.inl rfl))), (stageOf c4).absent (n _ (.inr (.inr rfl)))] at he
      have h1 := he p
      simp only [inOrder, List.append_nil, List.reverse_append, List.reverse_cons, List.reverse_nil, List.nil_append, List.cons_append] at h1
      cases early with
      | nil => rfl
      | cons a early =>
        injection h1 with h1 _
        obtain ⟨t, e | e⟩ := hx a (by simp) <;> rw [e] at h1 <;> cases h1
  subst hearly
  obtain ⟨early', p', late', e, ht⟩ := hm
  cases early' with
  | nil => exact ht
  | cons a early' =>
    rw [List.nil_append, List.cons_append] at e
    injection e with _ e
    obtain ⟨t, e' | e'⟩ := hx (.primary p') (by rw [e]; simp) <;> cases e'

end Louis
