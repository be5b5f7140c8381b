import Verif.Props.PassTables
import Verif.Props.Classes
import Verif.Props.Effects
import Verif.Props.Braille
import Verif.Props.Includes

/-!
# C20, C33, C43: swap classes and character classes of whole tables, and which included files are dictionaries

`C20_table` says which swap line a multipass action `%name` uses, and what it makes of each character.  `C43_stage`
says which characters a class of a multipass stage has, and `C33_dictionary_names` which names are those of hyphenation
dictionaries.
-/

namespace Louis

/-! ## Swap lines -/

/-- The lines that define a swap class: its name, the characters it replaces, and what for, in the order written. -/
inductive SwapLine : Rule → Text → Text → List Text → Prop
  | characters (name chars replacement : Text) : SwapLine (.swapcc name chars replacement) name chars (replacement.map ([·]))
  | toCells (name chars : Text) (cells : List Cells) : SwapLine (.swapcd name chars cells) name chars (cells.map Cells.toText)
  | cells (name : Text) (cells : Cells) (replacement : List Cells) :
      SwapLine (.swapdd name cells replacement) name cells.toText (replacement.map Cells.toText)

theorem define_swaps (alpha : Char → Bool) (ctx : TableCtx) (r : Rule) : (ctx.define alpha r).swaps = ctx.swaps := by
  cases r <;> simp only [TableCtx.define] <;> (try split) <;> (try split) <;> rfl

theorem defineAll_swaps (alpha : Char → Bool) : ∀ (rules : List Anchored) (ctx : TableCtx),
    (rules.foldl (fun ctx r => ctx.define alpha r.rule) ctx).swaps = ctx.swaps
  | [], _ => rfl
  | r :: rest, ctx => by rw [List.foldl_cons, defineAll_swaps alpha rest, define_swaps]

theorem derive_swaps_other (ctx : TableCtx) (r : Rule) (name : Text) (h : ∀ members texts, ¬SwapLine r name members texts) :
    (ctx.derive r).swaps.get name = ctx.swaps.get name := by
  cases r
  case swapcc n cs rs =>
    have : n ≠ name := by rintro rfl; exact h _ _ (.characters n cs rs)
    simp [TableCtx.derive, SwapClasses.insert, SwapClasses.get, this]
  case swapcd n cs ds =>
    have : n ≠ name := by rintro rfl; exact h _ _ (.toCells n cs ds)
    simp [TableCtx.derive, SwapClasses.insert, SwapClasses.get, this]
  case swapdd n ds rs =>
    have : n ≠ name := by rintro rfl; exact h _ _ (.cells n ds rs)
    simp [TableCtx.derive, SwapClasses.insert, SwapClasses.get, this]
  case base n d b => simp only [TableCtx.derive]; split <;> rfl
  all_goals rfl

theorem derive_swaps_line (ctx : TableCtx) {r : Rule} {name members : Text} {texts : List Text}
    (h : SwapLine r name members texts) : (ctx.derive r).swaps.get name = some ⟨members.zip texts⟩ := by
  cases h <;> simp [TableCtx.derive, SwapClasses.insert, SwapClasses.get, Cells.toText]

theorem deriveAll_swaps_other (name : Text) : ∀ (rules : List Anchored) (ctx : TableCtx)
    (_ : ∀ r ∈ rules, ∀ members texts, ¬SwapLine r.rule name members texts),
    (rules.foldl (fun ctx r => ctx.derive r.rule) ctx).swaps.get name = ctx.swaps.get name
  | [], _, _ => rfl
  | r :: rest, ctx, h => by
    rw [List.foldl_cons, deriveAll_swaps_other name rest _ fun r' hr' => h r' (List.mem_cons_of_mem _ hr'),
      derive_swaps_other ctx r.rule name (h r List.mem_cons_self)]

/-- C20: a swap class that no line defines does not exist (and a line that uses it makes the table unusable, C07). -/
theorem C20_table_undefined (alpha : Char → Bool) (rules : List Anchored) (name : Text)
    (h : ∀ r ∈ rules, ∀ members texts, ¬SwapLine r.rule name members texts) :
    (TableCtx.compile alpha rules).swaps.get name = none := by
  rw [TableCtx.compile, deriveAll_swaps_other name rules _ h, defineAll_swaps]; rfl

theorem table_swapper (alpha : Char → Bool) {rules pre post : List Anchored} {r : Anchored} {name members : Text} {texts : List Text}
    (hrules : rules = pre ++ r :: post) (hline : SwapLine r.rule name members texts)
    (hlast : ∀ r' ∈ post, ∀ members' texts', ¬SwapLine r'.rule name members' texts') :
    (TableCtx.compile alpha rules).swaps.get name = some ⟨members.zip texts⟩ := by
  subst hrules
  rw [TableCtx.compile, List.foldl_append, List.foldl_cons, deriveAll_swaps_other name post _ hlast, derive_swaps_line _ hline]

/-- C20: the swap class `name` of a table is that of the last line that defines it.  It replaces the character at each
place of its first operand by what is at the same place of its second one, counting the last place of a character that is
listed twice, and leaves all others alone. -/
theorem C20_table (alpha : Char → Bool) {rules pre post : List Anchored} {r : Anchored} {name members : Text} {texts : List Text}
    (hrules : rules = pre ++ r :: post) (hline : SwapLine r.rule name members texts)
    (hlast : ∀ r' ∈ post, ∀ members' texts', ¬SwapLine r'.rule name members' texts') :
    ∃ s, (TableCtx.compile alpha rules).swaps.get name = some s ∧
      (∀ a b, s.swap (a ++ b) = s.swap a ++ s.swap b) ∧ s.swap [] = [] ∧
      (∀ (i : Nat) c t, members[i]? = some c → texts[i]? = some t →
        (∀ j, i < j → j < texts.length → members[j]? ≠ some c) → s.swap [c] = t) ∧
      ∀ c, (∀ i, i < texts.length → members[i]? ≠ some c) → s.swap [c] = [c] := by
  refine ⟨⟨members.zip texts⟩, table_swapper alpha hrules hline hlast, C20_swap_append _, rfl, ?_, ?_⟩
  · intro i c t hc ht hafter
    have hi : (members.zip texts)[i]? = some (c, t) := by
      rw [List.getElem?_zip_eq_some]; exact ⟨hc, ht⟩
    obtain ⟨hlt, hget⟩ := List.getElem?_eq_some_iff.1 hi
    have hsplit : members.zip texts = (members.zip texts).take i ++ (c, t) :: (members.zip texts).drop (i + 1) := by
      rw [← hget, List.getElem_cons_drop, List.take_append_drop]
    refine C20_swap_inside _ _ _ c t hsplit ?_
    intro m hm hmc
    obtain ⟨k, hk⟩ := List.mem_iff_getElem?.1 hm
    rw [List.getElem?_drop, List.getElem?_zip_eq_some] at hk
    obtain ⟨h', -⟩ := List.getElem?_eq_some_iff.1 hk.2
    exact hafter (i + 1 + k) (by omega) h' (hmc ▸ hk.1)
  · intro c hc
    refine C20_swap_outside _ c ?_
    intro m hm hmc
    obtain ⟨k, hk⟩ := List.mem_iff_getElem?.1 hm
    rw [List.getElem?_zip_eq_some] at hk
    obtain ⟨h', -⟩ := List.getElem?_eq_some_iff.1 hk.2
    exact hc k h' (hmc ▸ hk.1)

/-! ## Classes of a stage -/

/-- C43: the members of the classes that multipass lines refer to.  Before and in the main stage they are the characters
that the rules of the table put into the class, after it the braille characters. -/
theorem C43_stage (sys : Sys) (rules : List Anchored) (d : Direction) (k : PassKind) (c : CharClass) (x : Char) :
    (passTable sys rules d k).classes.has c x = true ↔ ∃ pre r post, rules = pre ++ r :: post ∧
      match k with
      | .correct | .context => r.rule.PutsChar (defsBefore rules pre) c x
      | .pass2 | .pass3 | .pass4 => r.rule.PutsCell sys.alpha (defsBefore rules pre) c x := by
  cases k
  · exact C43_characters sys.alpha rules c x
  · exact C43_characters sys.alpha rules c x
  · exact C43_cells sys.alpha rules c x
  · exact C43_cells sys.alpha rules c x
  · exact C43_cells sys.alpha rules c x

/-! ## Dictionary names -/

theorem isDic_name {name : Text} (h : '/' ∉ name) : isDic name = true ↔ ∃ stem, stem ≠ [] ∧ name = stem ++ ".dic".toList := by
  rw [isDic, splitOn_none _ _ h]
  by_cases h1 : name = []
  · subst h1; simp
  by_cases h2 : name = ['.']
  · subst h2
    simp only [bne_self_eq_false, Bool.and_false, List.filter_cons, Bool.false_eq_true, ↓reduceIte, List.filter_nil, List.getLast?_nil, false_iff]
    rintro ⟨stem, -, he⟩
    have := congrArg List.length he
    simp at this
  · have hf : List.filter (fun c => c != [] && c != ['.']) [name] = [name] := by simp [h1, h2]
    rw [hf]
    simp only [List.getLast?_singleton, decide_eq_true_eq]
    constructor
    · rintro ⟨⟨stem, rfl⟩, hl⟩
      refine ⟨stem, ?_, rfl⟩
      rintro rfl
      exact absurd hl (by decide)
    · rintro ⟨stem, hs, rfl⟩
      refine ⟨⟨stem, rfl⟩, ?_⟩
      have := List.length_pos_iff.2 hs
      simp; omega

theorem splitOn_snoc (sep : Char) (dir name : Text) (h : sep ∉ name) :
    splitOn sep (dir ++ sep :: name) = splitOn sep dir ++ [name] := by
  induction dir with
  | nil => simp [splitOn, splitOn_none sep name h]
  | cons c cs ih =>
    simp only [List.cons_append, splitOn, ih]
    by_cases hc : c = sep
    · simp [hc]
    · simp only [hc, if_false]
      match hs : splitOn sep cs with
      | [] => exact absurd hs (splitOn_ne_nil sep cs)
      | p :: ps => rfl

/-- C33: an included file is taken for a hyphenation dictionary if its name is `.dic` preceded by something; folders
before the name do not count, nor do a slash, or a slash and a period, at the end. -/
theorem C33_dictionary_names :
    (∀ name, '/' ∉ name → (isDic name = true ↔ ∃ stem, stem ≠ [] ∧ name = stem ++ ".dic".toList)) ∧
    (∀ dir name, '/' ∉ name → name ≠ [] → name ≠ ['.'] → isDic (dir ++ '/' :: name) = isDic name) ∧
    (∀ path, isDic (path ++ ['/']) = isDic path ∧ isDic (path ++ ['/', '.']) = isDic path) := by
  refine ⟨fun name => isDic_name, ?_, ?_⟩
  · intro dir name h h1 h2
    simp [isDic, splitOn_snoc _ dir name h, splitOn_none _ _ h, h1, h2]
  · intro path
    have e1 : splitOn '/' (path ++ ['/']) = splitOn '/' path ++ [[]] := splitOn_snoc '/' path [] (by simp)
    have e2 : splitOn '/' (path ++ ['/', '.']) = splitOn '/' path ++ [['.']] := splitOn_snoc '/' path ['.'] (by decide)
    constructor
    · simp [isDic, e1]
    · simp [isDic, e2]

/-! ## Examples -/

example : isDic "tables/hyph.dic".toList = true ∧ isDic "tables/.dic".toList = false ∧ isDic "a.dic/b.ctb".toList = false ∧
    isDic "a.dic/".toList = true := by decide +kernel

example : SwapLine (.swapcc "x".toList "ab".toList "cd".toList) "x".toList ['a', 'b'] [['c'], ['d']] := .characters ..

example : ((TableCtx.compile (fun c => c.isAlpha) [⟨.swapcc "x".toList "ab".toList "cd".toList, 1⟩,
    ⟨.swapcc "x".toList "aba".toList "pqr".toList, 2⟩]).swaps.get "x".toList).map (·.swap "abz".toList) = some "rqz".toList := by
  decide +kernel

end Louis
