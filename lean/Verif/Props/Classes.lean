import Verif.Props.Definitions
import Verif.Props.Origins
import Verif.Spec.Rules
import Verif.Spec.Lines
import Verif.Lemmas.DecEq
import Verif.Props.Rules
import Verif.Props.Demo

/-!
# C43: the members of the classes of a table
-/

namespace Louis

/-! ## Specification -/

/-- The dots of the characters when the second loop reaches the rule after `pre`: all character definitions of the table,
and the `base` rules up to there. -/
def defsBefore (rules pre : List Anchored) : CharDefs :=
  pre.foldl (fun defs r => deriveDefs defs r.rule) (rules.flatMap fun r => directOf r.rule)

/-- The classes a character definition is for: that of its opcode; a lowercase or uppercase letter is a letter as well,
and a hyphen is a punctuation mark. -/
inductive CharKind.Within : CharKind → CharClass → Prop
  | space : Within .space .space
  | punctuation : Within .punctuation .punctuation
  | digit : Within .digit .digit
  | litdigit : Within .litdigit .litdigit
  | letter : Within .letter .letter
  | lowercase : Within .lowercase .lowercase
  | lowercaseLetter : Within .lowercase .letter
  | uppercase : Within .uppercase .uppercase
  | uppercaseLetter : Within .uppercase .letter
  | sign : Within .sign .sign
  | math : Within .math .math
  | hyphen : Within .hyphen .punctuation

/-- The rule puts the character into the class; `defs` are the dots known when it is looked at. -/
inductive Rule.PutsChar (defs : CharDefs) : Rule → CharClass → Char → Prop
  | charDef (kind : CharKind) (c : Char) (dots : Cells) (cons : RuleCons) (k : CharClass) (h : kind.Within k) :
      PutsChar defs (.charDef kind c dots cons) k c
  | decpoint (c : Char) (dots : Cells) : PutsChar defs (.decpoint c dots) .punctuation c
  | base (name : Text) (derived base : Char) (h : (defs.get base).isSome = true) :
      PutsChar defs (.base name derived base) (CharClass.ofName name) derived
  | baseLetter (name : Text) (derived base : Char) (h : (defs.get base).isSome = true)
      (hn : name = "uppercase".toList ∨ name = "lowercase".toList) : PutsChar defs (.base name derived base) .letter derived
  | attr (name chars : Text) (c : Char) (h : c ∈ chars) : PutsChar defs (.attribute name chars) (CharClass.ofName name) c
  | seqdelimiter (chars : Text) (c : Char) (h : c ∈ chars) : PutsChar defs (.seqdelimiter chars) .seqdelimiter c
  | seqbeforechars (chars : Text) (c : Char) (h : c ∈ chars) : PutsChar defs (.seqbeforechars chars) .seqbeforechars c
  | seqafterchars (chars : Text) (c : Char) (h : c ∈ chars) : PutsChar defs (.seqafterchars chars) .seqafterchars c
  | swapcc (name chars repl : Text) (c : Char) (h : c ∈ chars) : PutsChar defs (.swapcc name chars repl) (CharClass.ofName name) c
  | swapcd (name chars : Text) (dots : List Cells) (c : Char) (h : c ∈ chars) :
      PutsChar defs (.swapcd name chars dots) (CharClass.ofName name) c
  /-- sic: the cells of the class are put into the character class -/
  | swapdd (name : Text) (cells : Cells) (repl : List Cells) (cell : Cell) (h : cell ∈ cells) :
      PutsChar defs (.swapdd name cells repl) (CharClass.ofName name) cell.toUnicode

/-- The rule puts the cell into the class of cells. -/
inductive Rule.PutsCell (alpha : Char → Bool) (defs : CharDefs) : Rule → CharClass → Char → Prop
  | charDef (kind : CharKind) (c : Char) (cell : Cell) (cons : RuleCons) (k : CharClass) (h : kind.Within k) :
      PutsCell alpha defs (.charDef kind c [cell] cons) k cell.toUnicode
  | decpoint (c : Char) (cell : Cell) : PutsCell alpha defs (.decpoint c [cell]) .punctuation cell.toUnicode
  | always (chars : Text) (dots : Braille) (cons : RuleCons) (withs : List WithClass) (c : Char)
      (ha : ∀ x ∈ chars, alpha x = true) (h : c ∈ dots.toText) : PutsCell alpha defs (.text .always chars dots cons withs) .letter c
  | attr (name chars : Text) (x c : Char) (h : x ∈ chars) (hd : defs.get x = some [c]) :
      PutsCell alpha defs (.attribute name chars) (CharClass.ofName name) c
  | seqdelimiter (chars : Text) (x c : Char) (h : x ∈ chars) (hd : defs.get x = some [c]) :
      PutsCell alpha defs (.seqdelimiter chars) .seqdelimiter c
  | seqbeforechars (chars : Text) (x c : Char) (h : x ∈ chars) (hd : defs.get x = some [c]) :
      PutsCell alpha defs (.seqbeforechars chars) .seqbeforechars c
  | seqafterchars (chars : Text) (x c : Char) (h : x ∈ chars) (hd : defs.get x = some [c]) :
      PutsCell alpha defs (.seqafterchars chars) .seqafterchars c
  /-- sic: the cells of a swap class go into the class of `seqafterchars` -/
  | swapcc (name chars repl : Text) (x c : Char) (h : x ∈ chars) (hd : defs.get x = some [c]) :
      PutsCell alpha defs (.swapcc name chars repl) .seqafterchars c
  | swapcd (name chars : Text) (dots : List Cells) (x c : Char) (h : x ∈ chars) (hd : defs.get x = some [c]) :
      PutsCell alpha defs (.swapcd name chars dots) .seqafterchars c
  /-- sic: only if a cell of the class is itself a defined character -/
  | swapdd (name : Text) (cells : Cells) (repl : List Cells) (cell : Cell) (c : Char) (h : cell ∈ cells)
      (hd : defs.get cell.toUnicode = some [c]) : PutsCell alpha defs (.swapdd name cells repl) .seqafterchars c

/-! ## Proofs -/

theorem within_iff (kind : CharKind) (k : CharClass) : kind.Within k ↔ k ∈ kind.classes := by
  constructor
  · intro h; cases h <;> simp [CharKind.classes]
  · intro h
    cases kind <;> simp only [CharKind.classes, List.mem_cons, List.not_mem_nil, or_false] at h
    case lowercase => rcases h with rfl | rfl <;> constructor
    case uppercase => rcases h with rfl | rfl <;> constructor
    all_goals (subst h; constructor)

theorem has_insert (cs : CharClasses) (k k' : CharClass) (c c' : Char) :
    (cs.insert k' c').has k c = true ↔ cs.has k c = true ∨ (k = k' ∧ c = c') := by
  simp [CharClasses.has, CharClasses.insert]

theorem has_insert_chars (k' : CharClass) : ∀ (chars : Text) (cs : CharClasses) (k : CharClass) (c : Char),
    (chars.foldl (fun cs c => cs.insert k' c) cs).has k c = true ↔ cs.has k c = true ∨ (k = k' ∧ c ∈ chars)
  | [], cs, k, c => by simp
  | x :: xs, cs, k, c => by
    rw [List.foldl_cons, has_insert_chars k' xs, has_insert]
    grind

theorem has_insert_classes (c' : Char) : ∀ (ks : List CharClass) (cs : CharClasses) (k : CharClass) (c : Char),
    (ks.foldl (fun cs k => cs.insert k c') cs).has k c = true ↔ cs.has k c = true ∨ (k ∈ ks ∧ c = c')
  | [], cs, k, c => by simp
  | x :: xs, cs, k, c => by
    rw [List.foldl_cons, has_insert_classes c' xs, has_insert]
    grind

theorem has_insertDots (dots : Cells) : ∀ (ks : List CharClass) (cs : CharClasses) (k : CharClass) (c : Char),
    (ks.foldl (fun cs k => cs.insertDots k dots) cs).has k c = true ↔
      cs.has k c = true ∨ (k ∈ ks ∧ ∃ cell, dots = [cell] ∧ c = cell.toUnicode)
  | [], cs, k, c => by simp
  | x :: xs, cs, k, c => by
    rw [List.foldl_cons, has_insertDots dots xs]
    have : (cs.insertDots x dots).has k c = true ↔ cs.has k c = true ∨ (k = x ∧ ∃ cell, dots = [cell] ∧ c = cell.toUnicode) := by
      unfold CharClasses.insertDots
      split
      · next cell => rw [has_insert]; simp
      · next hn => constructor
                   · exact Or.inl
                   · rintro (h | ⟨_, cell, he, _⟩)
                     · exact h
                     · exact absurd he (hn cell)
    rw [this]
    grind

theorem has_insertAssociated (defs : CharDefs) (kd : CharClass) : ∀ (chars : Text) (cs : CharClasses) (k : CharClass) (c : Char),
    (chars.foldl (fun cs c => cs.insertAssociated kd c defs) cs).has k c = true ↔
      cs.has k c = true ∨ (k = kd ∧ ∃ x ∈ chars, defs.get x = some [c])
  | [], cs, k, c => by simp
  | x :: xs, cs, k, c => by
    rw [List.foldl_cons, has_insertAssociated defs kd xs]
    have : (cs.insertAssociated kd x defs).has k c = true ↔ cs.has k c = true ∨ (k = kd ∧ defs.get x = some [c]) := by
      rw [CharClasses.insertAssociated]
      split
      · next cell he => rw [has_insert, he]; grind
      · next hn => constructor
                   · exact Or.inl
                   · rintro (h | ⟨_, he⟩)
                     · exact h
                     · exact absurd he (hn c)
    rw [this]
    simp only [List.mem_cons]
    grind

theorem has_addMembers (ctx : TableCtx) (k' kd : CharClass) (chars : Text) (k : CharClass) (c : Char) :
    ((ctx.addMembers k' kd chars).classes.has k c = true ↔ ctx.classes.has k c = true ∨ (k = k' ∧ c ∈ chars)) ∧
    ((ctx.addMembers k' kd chars).dots.has k c = true ↔
      ctx.dots.has k c = true ∨ (k = kd ∧ ∃ x ∈ chars, ctx.defs.get x = some [c])) :=
  ⟨has_insert_chars _ _ _ _ _, has_insertAssociated _ _ _ _ _ _⟩

/-- The rules of the first loop. -/
def Rule.isDefinition : Rule → Bool
  | .charDef _ _ _ _ | .decpoint _ _ | .text _ _ _ _ _ => true
  | _ => false

theorem define_has (alpha : Char → Bool) (defs : CharDefs) (ctx : TableCtx) (r : Rule) (k : CharClass) (c : Char) :
    ((ctx.define alpha r).classes.has k c = true ↔
      ctx.classes.has k c = true ∨ (r.isDefinition = true ∧ r.PutsChar defs k c)) ∧
    ((ctx.define alpha r).dots.has k c = true ↔
      ctx.dots.has k c = true ∨ (r.isDefinition = true ∧ r.PutsCell alpha defs k c)) := by
  cases r
  case charDef kind x dots cons =>
    simp only [TableCtx.define, has_insert_classes, has_insertDots, Rule.isDefinition, true_and]
    refine ⟨or_congr_right ⟨?_, ?_⟩, or_congr_right ⟨?_, ?_⟩⟩
    · rintro ⟨h, rfl⟩; exact .charDef _ _ _ _ _ ((within_iff _ _).mpr h)
    · intro h; cases h with | charDef _ _ _ _ _ h => exact ⟨(within_iff _ _).mp h, rfl⟩
    · rintro ⟨h, cell, rfl, rfl⟩; exact .charDef _ _ _ _ _ ((within_iff _ _).mpr h)
    · intro h; cases h with | charDef _ _ cell _ _ h => exact ⟨(within_iff _ _).mp h, cell, rfl, rfl⟩
  case decpoint x dots =>
    have hd := has_insertDots dots [.punctuation] ctx.dots k c
    simp only [List.foldl_cons, List.foldl_nil, List.mem_singleton] at hd
    simp only [TableCtx.define, has_insert, hd, Rule.isDefinition, true_and]
    refine ⟨or_congr_right ⟨?_, ?_⟩, or_congr_right ⟨?_, ?_⟩⟩
    · rintro ⟨rfl, rfl⟩; exact .decpoint _ _
    · intro h; cases h with | decpoint _ _ => exact ⟨rfl, rfl⟩
    · rintro ⟨rfl, cell, rfl, rfl⟩; exact .decpoint _ _
    · intro h; cases h with | decpoint _ cell => exact ⟨rfl, cell, rfl, rfl⟩
  case text kind chars dots cons withs =>
    have hno : ¬ (Rule.text kind chars dots cons withs).PutsChar defs k c := by intro h; cases h
    have hcell : (Rule.text kind chars dots cons withs).PutsCell alpha defs k c ↔
        kind = .always ∧ k = .letter ∧ chars.all alpha = true ∧ c ∈ dots.toText := by
      constructor
      · intro h; cases h with | always _ _ _ _ _ ha h => exact ⟨rfl, rfl, List.all_eq_true.mpr ha, h⟩
      · rintro ⟨rfl, rfl, ha, h⟩; exact .always _ _ _ _ _ (List.all_eq_true.mp ha) h
    rw [hcell]
    simp only [Rule.isDefinition, true_and, hno, or_false]
    cases kind
    case always =>
      simp only [TableCtx.define]
      split
      · next ha => rw [has_insert_chars]; simp [ha]
      · next ha => simp [ha]
    all_goals simp [TableCtx.define]
  all_goals simp [TableCtx.define, Rule.isDefinition]

theorem derive_has (alpha : Char → Bool) (ctx : TableCtx) (r : Rule) (k : CharClass) (c : Char) :
    ((ctx.derive r).classes.has k c = true ↔
      ctx.classes.has k c = true ∨ (r.isDefinition = false ∧ r.PutsChar ctx.defs k c)) ∧
    ((ctx.derive r).dots.has k c = true ↔
      ctx.dots.has k c = true ∨ (r.isDefinition = false ∧ r.PutsCell alpha ctx.defs k c)) := by
  cases r
  case base name derived base =>
    have hno : ¬ (Rule.base name derived base).PutsCell alpha ctx.defs k c := by intro h; cases h
    simp only [TableCtx.derive, Rule.isDefinition, true_and, hno, or_false]
    split
    · next hn =>
      refine ⟨⟨Or.inl, ?_⟩, Iff.rfl⟩
      rintro (h | h)
      · exact h
      · cases h with
        | base _ _ _ h => rw [hn] at h; cases h
        | baseLetter _ _ _ h _ => rw [hn] at h; cases h
    · next dots hs =>
      refine ⟨?_, Iff.rfl⟩
      simp only [has_insert_classes]
      refine or_congr_right ⟨?_, ?_⟩
      · rintro ⟨h, rfl⟩
        split at h
        · next hn =>
          simp only [List.mem_cons, List.not_mem_nil, or_false] at h
          rcases h with rfl | rfl
          · exact .base _ _ _ (by rw [hs]; rfl)
          · exact .baseLetter _ _ _ (by rw [hs]; rfl) hn
        · simp only [List.mem_cons, List.not_mem_nil, or_false] at h
          subst h
          exact .base _ _ _ (by rw [hs]; rfl)
      · intro h
        cases h with
        | base _ _ _ h => refine ⟨?_, rfl⟩; split <;> simp
        | baseLetter _ _ _ h hn => refine ⟨?_, rfl⟩; rw [if_pos hn]; simp
  case «attribute» name chars =>
    simp only [TableCtx.derive, Rule.isDefinition, true_and, has_addMembers]
    refine ⟨or_congr_right ⟨?_, ?_⟩, or_congr_right ⟨?_, ?_⟩⟩
    · rintro ⟨rfl, h⟩; exact .attr _ _ _ h
    · intro h; cases h with | attr _ _ _ h => exact ⟨rfl, h⟩
    · rintro ⟨rfl, x, h, hd⟩; exact .attr _ _ x _ h hd
    · intro h; cases h with | attr _ _ x _ h hd => exact ⟨rfl, x, h, hd⟩
  case seqdelimiter chars =>
    simp only [TableCtx.derive, Rule.isDefinition, true_and, has_addMembers]
    refine ⟨or_congr_right ⟨?_, ?_⟩, or_congr_right ⟨?_, ?_⟩⟩
    · rintro ⟨rfl, h⟩; exact .seqdelimiter _ _ h
    · intro h; cases h with | seqdelimiter _ _ h => exact ⟨rfl, h⟩
    · rintro ⟨rfl, x, h, hd⟩; exact .seqdelimiter _ x _ h hd
    · intro h; cases h with | seqdelimiter _ x _ h hd => exact ⟨rfl, x, h, hd⟩
  case seqbeforechars chars =>
    simp only [TableCtx.derive, Rule.isDefinition, true_and, has_addMembers]
    refine ⟨or_congr_right ⟨?_, ?_⟩, or_congr_right ⟨?_, ?_⟩⟩
    · rintro ⟨rfl, h⟩; exact .seqbeforechars _ _ h
    · intro h; cases h with | seqbeforechars _ _ h => exact ⟨rfl, h⟩
    · rintro ⟨rfl, x, h, hd⟩; exact .seqbeforechars _ x _ h hd
    · intro h; cases h with | seqbeforechars _ x _ h hd => exact ⟨rfl, x, h, hd⟩
  case seqafterchars chars =>
    simp only [TableCtx.derive, Rule.isDefinition, true_and, has_addMembers]
    refine ⟨or_congr_right ⟨?_, ?_⟩, or_congr_right ⟨?_, ?_⟩⟩
    · rintro ⟨rfl, h⟩; exact .seqafterchars _ _ h
    · intro h; cases h with | seqafterchars _ _ h => exact ⟨rfl, h⟩
    · rintro ⟨rfl, x, h, hd⟩; exact .seqafterchars _ x _ h hd
    · intro h; cases h with | seqafterchars _ x _ h hd => exact ⟨rfl, x, h, hd⟩
  case swapcc name chars repl =>
    simp only [TableCtx.derive, Rule.isDefinition, true_and, has_addMembers]
    refine ⟨or_congr_right ⟨?_, ?_⟩, or_congr_right ⟨?_, ?_⟩⟩
    · rintro ⟨rfl, h⟩; exact .swapcc _ _ _ _ h
    · intro h; cases h with | swapcc _ _ _ _ h => exact ⟨rfl, h⟩
    · rintro ⟨rfl, x, h, hd⟩; exact .swapcc _ _ _ x _ h hd
    · intro h; cases h with | swapcc _ _ _ x _ h hd => exact ⟨rfl, x, h, hd⟩
  case swapcd name chars dots =>
    simp only [TableCtx.derive, Rule.isDefinition, true_and, has_addMembers]
    refine ⟨or_congr_right ⟨?_, ?_⟩, or_congr_right ⟨?_, ?_⟩⟩
    · rintro ⟨rfl, h⟩; exact .swapcd _ _ _ _ h
    · intro h; cases h with | swapcd _ _ _ _ h => exact ⟨rfl, h⟩
    · rintro ⟨rfl, x, h, hd⟩; exact .swapcd _ _ _ x _ h hd
    · intro h; cases h with | swapcd _ _ _ x _ h hd => exact ⟨rfl, x, h, hd⟩
  case swapdd name cells repl =>
    simp only [TableCtx.derive, Rule.isDefinition, true_and, has_addMembers, Cells.toText, List.mem_map]
    refine ⟨or_congr_right ⟨?_, ?_⟩, or_congr_right ⟨?_, ?_⟩⟩
    · rintro ⟨rfl, cell, h, rfl⟩; exact .swapdd _ _ _ _ h
    · intro h; cases h with | swapdd _ _ _ cell h => exact ⟨rfl, cell, h, rfl⟩
    · rintro ⟨rfl, _, ⟨cell, h, rfl⟩, hd⟩; exact .swapdd _ _ _ cell _ h hd
    · intro h; cases h with | swapdd _ _ _ cell _ h hd => exact ⟨rfl, _, ⟨cell, h, rfl⟩, hd⟩
  case charDef => simp [TableCtx.derive, Rule.isDefinition]
  case decpoint => simp [TableCtx.derive, Rule.isDefinition]
  case text => simp [TableCtx.derive, Rule.isDefinition]
  all_goals
    simp only [TableCtx.derive, Rule.isDefinition, true_and]
    refine ⟨⟨Or.inl, ?_⟩, ⟨Or.inl, ?_⟩⟩ <;> (rintro (h | h); exact h; cases h)

theorem defines_has (alpha : Char → Bool) (k : CharClass) (c : Char) : ∀ (rules : List Anchored) (ctx : TableCtx),
    ((rules.foldl (fun ctx r => ctx.define alpha r.rule) ctx).classes.has k c = true ↔
      ctx.classes.has k c = true ∨ ∃ r ∈ rules, r.rule.isDefinition = true ∧ ∀ defs, r.rule.PutsChar defs k c) ∧
    ((rules.foldl (fun ctx r => ctx.define alpha r.rule) ctx).dots.has k c = true ↔
      ctx.dots.has k c = true ∨ ∃ r ∈ rules, r.rule.isDefinition = true ∧ ∀ defs, r.rule.PutsCell alpha defs k c)
  | [], ctx => by simp
  | r :: rs, ctx => by
    rw [List.foldl_cons]
    obtain ⟨h1, h2⟩ := defines_has alpha k c rs (ctx.define alpha r.rule)
    rw [h1, h2]
    have e1 : (ctx.define alpha r.rule).classes.has k c = true ↔
        ctx.classes.has k c = true ∨ (r.rule.isDefinition = true ∧ ∀ defs, r.rule.PutsChar defs k c) := by
      by_cases hi : ctx.classes.has k c = true
      · have := (define_has alpha [] ctx r.rule k c).1; simp only [hi, true_or, iff_true] at this ⊢; exact this
      · constructor
        · intro h
          refine Or.inr ⟨?_, fun defs => ?_⟩
          · exact (((define_has alpha [] ctx r.rule k c).1.mp h).resolve_left hi).1
          · exact (((define_has alpha defs ctx r.rule k c).1.mp h).resolve_left hi).2
        · rintro (h | ⟨h, hp⟩)
          · exact absurd h hi
          · exact (define_has alpha [] ctx r.rule k c).1.mpr (Or.inr ⟨h, hp []⟩)
    have e2 : (ctx.define alpha r.rule).dots.has k c = true ↔
        ctx.dots.has k c = true ∨ (r.rule.isDefinition = true ∧ ∀ defs, r.rule.PutsCell alpha defs k c) := by
      by_cases hi : ctx.dots.has k c = true
      · have := (define_has alpha [] ctx r.rule k c).2; simp only [hi, true_or, iff_true] at this ⊢; exact this
      · constructor
        · intro h
          refine Or.inr ⟨?_, fun defs => ?_⟩
          · exact (((define_has alpha [] ctx r.rule k c).2.mp h).resolve_left hi).1
          · exact (((define_has alpha defs ctx r.rule k c).2.mp h).resolve_left hi).2
        · rintro (h | ⟨h, hp⟩)
          · exact absurd h hi
          · exact (define_has alpha [] ctx r.rule k c).2.mpr (Or.inr ⟨h, hp []⟩)
    rw [e1, e2]
    simp only [List.mem_cons, exists_eq_or_imp, or_assoc, and_self]

theorem derives_has (alpha : Char → Bool) (k : CharClass) (c : Char) : ∀ (rules : List Anchored) (ctx : TableCtx),
    ((rules.foldl (fun ctx r => ctx.derive r.rule) ctx).classes.has k c = true ↔
      ctx.classes.has k c = true ∨ ∃ pre r post, rules = pre ++ r :: post ∧ r.rule.isDefinition = false ∧
        r.rule.PutsChar (pre.foldl (fun defs r => deriveDefs defs r.rule) ctx.defs) k c) ∧
    ((rules.foldl (fun ctx r => ctx.derive r.rule) ctx).dots.has k c = true ↔
      ctx.dots.has k c = true ∨ ∃ pre r post, rules = pre ++ r :: post ∧ r.rule.isDefinition = false ∧
        r.rule.PutsCell alpha (pre.foldl (fun defs r => deriveDefs defs r.rule) ctx.defs) k c)
  | [], ctx => by simp
  | r :: rs, ctx => by
    rw [List.foldl_cons]
    obtain ⟨h1, h2⟩ := derives_has alpha k c rs (ctx.derive r.rule)
    rw [h1, h2, (derive_has alpha ctx r.rule k c).1, (derive_has alpha ctx r.rule k c).2, derive_defs]
    have split : ∀ (Q : List Anchored → Anchored → Prop), (∃ pre x post, r :: rs = pre ++ x :: post ∧ Q pre x) ↔
        Q [] r ∨ ∃ pre x post, rs = pre ++ x :: post ∧ Q (r :: pre) x := by
      intro Q
      constructor
      · rintro ⟨pre, x, post, he, hq⟩
        cases pre with
        | nil => rw [List.nil_append, List.cons.injEq] at he; obtain ⟨rfl, -⟩ := he; exact Or.inl hq
        | cons y pre =>
          rw [List.cons_append, List.cons.injEq] at he
          obtain ⟨rfl, he⟩ := he
          exact Or.inr ⟨pre, x, post, he, hq⟩
      · rintro (hq | ⟨pre, x, post, rfl, hq⟩)
        · exact ⟨[], r, rs, rfl, hq⟩
        · exact ⟨r :: pre, x, post, rfl, hq⟩
    rw [split fun pre x => x.rule.isDefinition = false ∧
        x.rule.PutsChar (pre.foldl (fun defs r => deriveDefs defs r.rule) ctx.defs) k c,
      split fun pre x => x.rule.isDefinition = false ∧
        x.rule.PutsCell alpha (pre.foldl (fun defs r => deriveDefs defs r.rule) ctx.defs) k c]
    simp only [List.foldl_nil, List.foldl_cons, or_assoc, and_self]

theorem definition_puts {alpha : Char → Bool} {r : Rule} (h : r.isDefinition = true) {k : CharClass} {c : Char} (defs defs' : CharDefs) :
    (r.PutsChar defs k c → r.PutsChar defs' k c) ∧ (r.PutsCell alpha defs k c → r.PutsCell alpha defs' k c) := by
  constructor
  · intro hp
    cases hp <;> first | (simp [Rule.isDefinition] at h; done) | (constructor; assumption) | constructor
  · intro hp
    cases hp <;> first
      | (simp [Rule.isDefinition] at h; done)
      | exact .always _ _ _ _ _ (by assumption) (by assumption)
      | (constructor; assumption)
      | constructor

theorem compile_has (alpha : Char → Bool) (rules : List Anchored) (k : CharClass) (c : Char) :
    ((TableCtx.compile alpha rules).classes.has k c = true ↔
      ∃ pre r post, rules = pre ++ r :: post ∧ r.rule.PutsChar (defsBefore rules pre) k c) ∧
    ((TableCtx.compile alpha rules).dots.has k c = true ↔
      ∃ pre r post, rules = pre ++ r :: post ∧ r.rule.PutsCell alpha (defsBefore rules pre) k c) := by
  unfold TableCtx.compile
  have hd := derives_has alpha k c rules (rules.foldl (fun ctx r => ctx.define alpha r.rule) ⟨[], [], [], []⟩)
  have hf := defines_has alpha k c rules ⟨[], [], [], []⟩
  rw [foldl_define_defs] at hd
  simp only [List.nil_append] at hd
  simp only
  rw [hd.1, hd.2, hf.1, hf.2]
  have h0 : CharClasses.has [] k c = true ↔ False := by simp [CharClasses.has]
  rw [h0, false_or, false_or]
  constructor
  · constructor
    · rintro (⟨r, hr, hdef, hp⟩ | ⟨pre, r, post, he, hdef, hp⟩)
      · obtain ⟨pre, post, rfl⟩ := List.append_of_mem hr
        exact ⟨pre, r, post, rfl, hp _⟩
      · exact ⟨pre, r, post, he, hp⟩
    · rintro ⟨pre, r, post, he, hp⟩
      cases hdef : r.rule.isDefinition with
      | false => exact Or.inr ⟨pre, r, post, he, hdef, hp⟩
      | true => exact Or.inl ⟨r, by rw [he]; simp, hdef, fun defs => (definition_puts (alpha := alpha) hdef _ _).1 hp⟩
  · constructor
    · rintro (⟨r, hr, hdef, hp⟩ | ⟨pre, r, post, he, hdef, hp⟩)
      · obtain ⟨pre, post, rfl⟩ := List.append_of_mem hr
        exact ⟨pre, r, post, rfl, hp _⟩
      · exact ⟨pre, r, post, he, hp⟩
    · rintro ⟨pre, r, post, he, hp⟩
      cases hdef : r.rule.isDefinition with
      | false => exact Or.inr ⟨pre, r, post, he, hdef, hp⟩
      | true => exact Or.inl ⟨r, by rw [he]; simp, hdef, fun defs => (definition_puts hdef _ _).2 hp⟩

/-- C43: the members of a class of characters are exactly those that rules put into it. -/
theorem C43_characters (alpha : Char → Bool) (rules : List Anchored) (k : CharClass) (c : Char) :
    (TableCtx.compile alpha rules).classes.has k c = true ↔
      ∃ pre r post, rules = pre ++ r :: post ∧ r.rule.PutsChar (defsBefore rules pre) k c := (compile_has alpha rules k c).1

/-- C43: the members of a class of cells are exactly those that rules put into it. -/
theorem C43_cells (alpha : Char → Bool) (rules : List Anchored) (k : CharClass) (c : Char) :
    (TableCtx.compile alpha rules).dots.has k c = true ↔
      ∃ pre r post, rules = pre ++ r :: post ∧ r.rule.PutsCell alpha (defsBefore rules pre) k c := (compile_has alpha rules k c).2

/-- The classes that have a name of their own in every table. -/
def namedClasses : List (String × CharClass) :=
  [("space", .space), ("digit", .digit), ("letter", .letter), ("uppercase", .uppercase), ("lowercase", .lowercase),
   ("punctuation", .punctuation), ("sign", .sign), ("seqdelimiter", .seqdelimiter), ("seqbeforechars", .seqbeforechars),
   ("seqafterchars", .seqafterchars)]

/-- C43: a name used in a rule stands for the class with that name, or else for the class the table defines under it. -/
theorem C43_names (name : Text) (k : CharClass) : CharClass.ofName name = k ↔
    (∃ w, name = String.toList w ∧ (w, k) ∈ namedClasses) ∨ ((∀ w j, (w, j) ∈ namedClasses → name ≠ w.toList) ∧ k = .user name) := by
  have hin : ∀ p ∈ namedClasses, CharClass.ofName p.1.toList = p.2 := by decide +kernel
  have hout : (∀ w j, (w, j) ∈ namedClasses → name ≠ w.toList) → CharClass.ofName name = .user name := by
    intro h
    unfold CharClass.ofName
    rw [if_neg (h "space" .space (by simp [namedClasses])), if_neg (h "digit" .digit (by simp [namedClasses])),
      if_neg (h "letter" .letter (by simp [namedClasses])), if_neg (h "uppercase" .uppercase (by simp [namedClasses])),
      if_neg (h "lowercase" .lowercase (by simp [namedClasses])), if_neg (h "punctuation" .punctuation (by simp [namedClasses])),
      if_neg (h "sign" .sign (by simp [namedClasses])), if_neg (h "seqdelimiter" .seqdelimiter (by simp [namedClasses])),
      if_neg (h "seqbeforechars" .seqbeforechars (by simp [namedClasses])),
      if_neg (h "seqafterchars" .seqafterchars (by simp [namedClasses]))]
  constructor
  · rintro rfl
    by_cases hex : ∃ p ∈ namedClasses, name = p.1.toList
    · obtain ⟨p, hp, rfl⟩ := hex
      exact .inl ⟨p.1, rfl, by rw [hin p hp]; exact hp⟩
    · have hn : ∀ w j, (w, j) ∈ namedClasses → name ≠ w.toList := fun w j hw e => hex ⟨(w, j), hw, e⟩
      exact .inr ⟨hn, hout hn⟩
  · rintro (⟨w, rfl, hw⟩ | ⟨hn, rfl⟩)
    · exact hin _ hw
    · exact hout hn

/-- C43: the characters a table defines by `space`, `punctuation`, `digit`, `letter`, `lowercase`, `uppercase` or `sign`
lines are the members of the class of that name. -/
theorem C43_opcode_class (alpha : Char → Bool) (rules : List Anchored) (op : String) (kind : CharKind)
    (hop : (op, kind) ∈ charDefOpcodes) (hc : kind ≠ .litdigit ∧ kind ≠ .math ∧ kind ≠ .hyphen) (r : Anchored) (hr : r ∈ rules)
    (c : Char) (dots : Cells) (cons : RuleCons) (h : r.rule = .charDef kind c dots cons) :
    (TableCtx.compile alpha rules).classes.has (CharClass.ofName op.toList) c = true := by
  obtain ⟨pre, post, rfl⟩ := List.append_of_mem hr
  rw [C43_characters]
  refine ⟨pre, r, post, rfl, ?_⟩
  rw [h]
  refine .charDef _ _ _ _ _ ?_
  have : ∀ p ∈ charDefOpcodes, p.2 ≠ .litdigit ∧ p.2 ≠ .math ∧ p.2 ≠ .hyphen → CharClass.ofName p.1.toList ∈ p.2.classes := by
    decide +kernel
  exact (within_iff _ _).2 (this _ hop hc)

/-- C43 does not hold of `math` and `litdigit`: a rule that names one of these classes does not find the characters that
`math` or `litdigit` lines define (only those of an `attribute`, `base` or swap line with that name). -/
theorem C43_math_class_wrong (alpha : Char → Bool) (rules : List Anchored) (name : Text)
    (hn : name = "math".toList ∨ name = "litdigit".toList)
    (hdef : ∀ r ∈ rules, ∃ kind c dots cons, r.rule = .charDef kind c dots cons) (c : Char) :
    (TableCtx.compile alpha rules).classes.has (CharClass.ofName name) c = false := by
  rw [Bool.eq_false_iff]
  intro h
  rw [C43_characters] at h
  obtain ⟨pre, r, post, rfl, hp⟩ := h
  obtain ⟨kind, x, dots, cons, hr⟩ := hdef r (by simp)
  rw [hr] at hp
  have hk : CharClass.ofName name = .user name := by rcases hn with rfl | rfl <;> decide +kernel
  rw [hk] at hp
  cases hp with
  | charDef _ _ _ _ _ hw => cases hw

/-- C43: before and in the main stage, the test `%name` for a class defined by `attribute` or swap rules reads exactly
characters listed in these rules. -/
theorem C43_tests_characters_partial (alpha : Char → Bool) (rules : List Anchored) (name : Text) (q : Option Quantifier)
    (stage : Stage) (hs : stage = .pre ∨ stage = .main) (huser : CharClass.ofName name = .user name)
    (hb : ∀ r ∈ rules, ∀ derived base, r.rule ≠ .base name derived base)
    (hdd : ∀ r ∈ rules, ∀ cells repl, r.rule ≠ .swapdd name cells repl) (env : Env) (atStart : Bool) (before m after : Text) :
    Reads ((TableCtx.compile alpha rules).stageClasses stage) env atStart (.cls name q) before m after ↔
      admits q m.length ∧ ∀ c ∈ m, ∃ r ∈ rules, ∃ chars, c ∈ chars ∧
        (r.rule = .attribute name chars ∨ (∃ repl, r.rule = .swapcc name chars repl) ∨ (∃ dots, r.rule = .swapcd name chars dots)) := by
  have hst : (TableCtx.compile alpha rules).stageClasses stage = (TableCtx.compile alpha rules).classes := by
    rcases hs with rfl | rfl <;> rfl
  rw [hst]
  have hinj : ∀ n : Text, CharClass.ofName n = .user name → n = name := by
    intro n hn
    unfold CharClass.ofName at hn
    repeat (split at hn; cases hn)
    exact CharClass.user.inj hn
  have hcls : ∀ c, InClass (TableCtx.compile alpha rules).classes name c ↔ ∃ r ∈ rules, ∃ chars, c ∈ chars ∧
        (r.rule = .attribute name chars ∨ (∃ repl, r.rule = .swapcc name chars repl) ∨ (∃ dots, r.rule = .swapcd name chars dots)) := by
    intro c
    rw [InClass, C43_characters, huser]
    constructor
    · rintro ⟨pre, ⟨rule, id⟩, post, he, hp⟩
      have hm : (⟨rule, id⟩ : Anchored) ∈ rules := by rw [he]; simp
      simp only at hp
      generalize hk : CharClass.user name = k at hp
      cases hp with
      | charDef kind _ dots cons _ h =>
        rw [← hk] at h
        cases h
      | decpoint => cases hk
      | base n _ base h => exact absurd (by rw [hinj n hk.symm]) (hb _ hm c base)
      | baseLetter => cases hk
      | attr n chars _ h => exact ⟨_, hm, chars, h, Or.inl (by rw [hinj n hk.symm])⟩
      | seqdelimiter => cases hk
      | seqbeforechars => cases hk
      | seqafterchars => cases hk
      | swapcc n chars repl _ h => exact ⟨_, hm, chars, h, Or.inr (Or.inl ⟨repl, by rw [hinj n hk.symm]⟩)⟩
      | swapcd n chars dots _ h => exact ⟨_, hm, chars, h, Or.inr (Or.inr ⟨dots, by rw [hinj n hk.symm]⟩)⟩
      | swapdd n cells repl cell h => exact absurd (by rw [hinj n hk.symm]) (hdd _ hm cells repl)
    · rintro ⟨r, hr, chars, hc, h⟩
      obtain ⟨pre, post, rfl⟩ := List.append_of_mem hr
      refine ⟨pre, r, post, rfl, ?_⟩
      rw [← huser]
      rcases h with h | ⟨repl, h⟩ | ⟨dots, h⟩ <;> rw [h]
      · exact .attr _ _ _ hc
      · exact .swapcc _ _ _ _ hc
      · exact .swapcd _ _ _ _ hc
  unfold Reads Reading.some
  simp only [hcls]

/-- C43: after the main stage, the test `%name` for a class defined by `attribute` reads exactly the cells of listed
characters that are defined as one cell. -/
theorem C43_tests_cells_partial (alpha : Char → Bool) (rules : List Anchored) (name : Text) (q : Option Quantifier)
    (stage : Stage) (hs : stage ≠ .pre ∧ stage ≠ .main) (huser : CharClass.ofName name = .user name)
    (env : Env) (atStart : Bool) (before m after : Text) :
    Reads ((TableCtx.compile alpha rules).stageClasses stage) env atStart (.cls name q) before m after ↔
      admits q m.length ∧ ∀ c ∈ m, ∃ pre r post chars x, rules = pre ++ r :: post ∧ r.rule = .attribute name chars ∧
        x ∈ chars ∧ (defsBefore rules pre).get x = some [c] := by
  have hst : (TableCtx.compile alpha rules).stageClasses stage = (TableCtx.compile alpha rules).dots := by
    cases stage <;> simp at hs <;> rfl
  rw [hst]
  have hinj : ∀ n : Text, CharClass.ofName n = .user name → n = name := by
    intro n hn
    unfold CharClass.ofName at hn
    repeat (split at hn; cases hn)
    exact CharClass.user.inj hn
  have hcls : ∀ c, InClass (TableCtx.compile alpha rules).dots name c ↔ ∃ pre r post chars x, rules = pre ++ r :: post ∧
      r.rule = .attribute name chars ∧ x ∈ chars ∧ (defsBefore rules pre).get x = some [c] := by
    intro c
    rw [InClass, C43_cells, huser]
    constructor
    · rintro ⟨pre, ⟨rule, id⟩, post, he, hp⟩
      simp only at hp
      generalize hk : CharClass.user name = k at hp
      cases hp with
      | charDef kind _ dots cons _ h =>
        rw [← hk] at h
        cases h
      | attr n chars x _ h hd => exact ⟨pre, _, post, chars, x, he, by rw [hinj n hk.symm], h, hd⟩
      | _ => cases hk
    · rintro ⟨pre, r, post, chars, x, rfl, hr, hx, hd⟩
      refine ⟨pre, r, post, rfl, ?_⟩
      rw [← huser, hr]
      exact .attr _ _ x _ hx hd
  unfold Reads Reading.some
  simp only [hcls]

/-- C43 does not hold: after the main stage, the test for a swap class (defined by no `attribute`) reads nothing. -/
theorem C43_swap_class_wrong (alpha : Char → Bool) (rules : List Anchored) (name : Text) (stage : Stage)
    (hs : stage ≠ .pre ∧ stage ≠ .main) (huser : CharClass.ofName name = .user name)
    (hno : ∀ r ∈ rules, ∀ chars, r.rule ≠ .attribute name chars) (env : Env) (atStart : Bool) (before m after : Text) :
    ¬ Reads ((TableCtx.compile alpha rules).stageClasses stage) env atStart (.cls name none) before m after := by
  rw [C43_tests_cells_partial alpha rules name none stage hs huser]
  rintro ⟨h1, h2⟩
  cases m with
  | nil => simp [admits] at h1
  | cons c m =>
    obtain ⟨pre, r, post, chars, x, rfl, hr, -⟩ := h2 c (by simp)
    exact hno r (by simp) chars hr

/-- A table whose `pass2` rule tests an attribute class, and the same with a swap class: the first rule applies, the second
does not, although the text consists of the cells of the class. -/
theorem C43_swap_class_table_wrong :
    SourceTranslates demoSys ascii "letter a 1\nletter b 12\nattribute foo ab\npass2 %foo @3".toList .forward []
      "ab".toList "⠄⠄".toList ∧
    SourceTranslates demoSys ascii "letter a 1\nletter b 12\nswapdd foo 1,12 3,3\npass2 %foo %foo".toList .forward []
      "ab".toList "⠁⠃".toList :=
  ⟨runSource_sound (fuel := 40) (by decide +kernel), runSource_sound (fuel := 40) (by decide +kernel)⟩

/-- The hypotheses of the theorems above are met by class names. -/
example : CharClass.ofName "foo".toList = .user "foo".toList := by decide +kernel

/-- A `sign` line makes its character a member of the class `sign`, a `math` line makes no member of a class `math`: the
hypotheses of `C43_opcode_class` and `C43_math_class_wrong` are met by this table of two lines. -/
example : let rules : List Anchored := [⟨.charDef .sign '+' [[.d3]] ⟨false, false, false⟩, 0⟩, ⟨.charDef .math '=' [[.d4]] ⟨false, false, false⟩, 1⟩]
    (TableCtx.compile Char.isAlpha rules).classes.has (CharClass.ofName "sign".toList) '+' = true ∧
    (TableCtx.compile Char.isAlpha rules).classes.has (CharClass.ofName "math".toList) '=' = false :=
  ⟨C43_opcode_class Char.isAlpha _ "sign" .sign (by simp [charDefOpcodes]) (by decide) 
    ⟨.charDef .sign '+' [[.d3]] ⟨false, false, false⟩, 0⟩ (by simp) '+' [[.d3]] ⟨false, false, false⟩ rfl,
   C43_math_class_wrong Char.isAlpha _ "math".toList (.inl rfl) (by simp) '='⟩

/-- **C40 (which signs are read backward).** A capital or number sign whose cells are also those of a letter is not read as a
sign.  The cells that count are those of the `letter`, `lowercase` and `uppercase` lines. -/
theorem C40_letter_cells (rules : List Anchored) (t : Text) : t ∈ letterDotsOf .backward rules ↔
    ∃ r ∈ rules, ∃ k c dots cons, r.rule = .charDef k c dots cons ∧ (k = .letter ∨ k = .lowercase ∨ k = .uppercase) ∧
      t = dots.toText := by
  simp only [letterDotsOf, List.mem_filterMap]
  constructor
  · rintro ⟨r, hr, h⟩
    split at h
    all_goals first
      | (injection h with h; subst h
         next e => exact ⟨r, hr, _, _, _, _, e, by simp, rfl⟩)
      | cases h
  · rintro ⟨r, hr, k, c, dots, cons, e, hk, rfl⟩
    refine ⟨r, hr, ?_⟩
    rw [e]
    rcases hk with rfl | rfl | rfl <;> rfl

end Louis
