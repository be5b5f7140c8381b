import Verif.Props.WordsSigns
import Verif.Props.MainTables

/-!
# C75: words are translated by themselves
-/

namespace Louis

open Regexp (Fault)

section

variable {sys : Sys} {ctx : TableCtx} {rules : List Anchored} {p : Primary} {b : Char}

theorem no_triggers (hw : ∀ r ∈ rules, r.rule.WithinWords b) : triggersOf rules = [] := by
  unfold triggersOf
  rw [List.filterMap_eq_nil_iff]
  intro r hr
  have := hw r hr
  split
  · next e => rw [e] at this; exact this.elim
  · rfl

theorem noPatterns_plain {T : MainTable} (h : T.NoPatterns) : T.Plain := by
  constructor
  · rw [h.1]; intro l hl; cases hl
  · rw [h.2]; intro l hl; cases hl

/-- What the main stage does with a text, if no word is computer braille. -/
theorem main_view (hm : MainStage sys ctx .forward rules p) (hw : ∀ r ∈ rules, r.rule.WithinWords b) (cs : Case) (text : Text) :
    ∃ flags ps made, FlagsOf sys ctx .forward rules [] text flags ∧ p.indicators.pairs cs.lower text [] = .ok ps ∧
      (mainTable (ctx.prim .forward) .forward (tableOps ctx .forward rules)).Run (listing p.table cs.lower) cs.lower flags text made ∧
      ∀ ts, p.Traces cs text [] ts ↔
        ts = (mainTable (ctx.prim .forward) .forward (tableOps ctx .forward rules)).trace cs flags (fun i => atPos i ps) made := by
  obtain ⟨hc1, hc2, hc3⟩ := hm.constrainers
  obtain ⟨flags, hflags⟩ := C22_constraints_total p.constrainers hc1 hc2 hc3 text []
  obtain ⟨ps, ind, i1, hind, -, -, i5⟩ := C22_indicators_total p.indicators cs.lower text []
  have ht : p.triggers.isEmpty = true := by rw [hm.triggers, no_triggers hw]; rfl
  have hf : (fun pos => (ind[pos]?).getD []) = fun pos => atPos pos ps := by
    funext pos
    rw [i5 pos]
    rfl
  obtain ⟨made, hrun, htr⟩ := main_listed hm.built (noPatterns_plain (noPatterns_table hw)) cs flags (fun i => atPos i ps)
    (fun pos r hr => hm.ind_empty hind pos r (by rw [congrFun hf pos]; exact hr)) text
  refine ⟨flags, ps, made, flags_table hm (by rw [if_pos ht]) hflags, i1, hrun, fun ts => ?_⟩
  rw [← htr ts, ← hf]
  constructor
  · rintro ⟨e, flags', ind', g1, g2, g3, g4⟩
    rw [if_pos ht] at g1
    subst g1
    rw [hflags] at g2
    rw [hind] at g3
    cases g2
    cases g3
    exact g4
  · intro h
    exact ⟨[], flags, ind, by rw [if_pos ht], hflags, hind, h⟩

theorem bool_same {a c : Bool} {P Q : Prop} (h : a = true ↔ P) (h' : c = true ↔ Q) (hpq : P ↔ Q) : a = c := by
  cases a <;> cases c <;> simp_all

theorem flags_same {t₁ t₂ : Text} {f g : Constraints} {i j : Nat} (hw : ∀ r ∈ rules, r.rule.WithinWords b)
    (hf : FlagsOf sys ctx .forward rules [] t₁ f) (hg : FlagsOf sys ctx .forward rules [] t₂ g)
    (hn : InNumberOf ctx rules t₁ i ↔ InNumberOf ctx rules t₂ j)
    (hh : ∀ hy, BreakAfter hy (ctx.classes.members .letter) t₁ i ↔ BreakAfter hy (ctx.classes.members .letter) t₂ j) :
    f.SameAt .forward g i j := by
  have nc : ∀ (t : Text) (k : Nat), ¬ InComputerBraille ctx rules [] t k := by
    rintro t k ⟨-, ⟨s, hs, -⟩ | ⟨r, hr, tr, cons, e, -⟩⟩
    · cases hs
    · have := hw r hr
      rw [e] at this
      exact this
  refine ⟨bool_same (hf.number i) (hg.number j) hn, bool_same (hf.computer i) (hg.computer j) ?_, bool_same (hf.hyphen i) (hg.hyphen j) ?_,
    fun h => (by cases h), fun h => (by cases h), fun h => by cases h⟩
  · exact ⟨fun h => (nc _ _ h).elim, fun h => (nc _ _ h).elim⟩
  · exact and_congr_right fun _ => exists_congr fun hy => and_congr_right fun _ => hh hy

theorem allowed_same {f g : Constraints} {i j : Nat} (h1 : f.prepuncOk i = g.prepuncOk j) (h2 : f.postpuncOk i = g.postpuncOk j)
    (o : Resolved) : allowedHere f i o = allowedHere g j o := by
  unfold allowedHere
  split
  · exact h1
  · exact h2
  · rfl

/-- **C75**, main stage. -/
theorem C75_main_stage (hm : MainStage sys ctx .forward rules p) (hw : ∀ r ∈ rules, r.rule.WithinWords b) (hb : Blank ctx.classes b)
    (cs : Case) (hl : cs.lower b = [b]) (w v : Text) (ts : List Resolved) :
    p.Traces cs (w ++ b :: v) [] ts ↔
      ∃ t₁ t₂ t₃, p.Traces cs w [] t₁ ∧ p.Traces cs [b] [] t₂ ∧ p.Traces cs v [] t₃ ∧ ts = t₁ ++ (t₂ ++ t₃) := by
  obtain ⟨f, ps, made, hf, hps, hrun, htr⟩ := main_view hm hw cs (w ++ b :: v)
  obtain ⟨fw, pw, mw, hfw, hpw, hrw, htw⟩ := main_view hm hw cs w
  obtain ⟨fb, pb, mb, hfb, hpb, hrb, htb⟩ := main_view hm hw cs [b]
  obtain ⟨fv, pv, mv, hfv, hpv, hrv, htv⟩ := main_view hm hw cs v
  have nn := notNumeric_table hb hw
  have nl : b ∉ ctx.classes.members .letter := blank_members hb (by decide)
  have nb := noBlank_table (ctx := ctx) hw
  have np := noPatterns_table (ctx := ctx) hw
  have hok := hm.built.ok
  have hcl : Blank (ctx.prim .forward).trieClasses b := hb
  have ss := signs_split hm hw hb hl hps hpw hpb hpv
  have len : (w ++ b :: v).length = w.length + 1 + v.length := by simp; omega
  have thirds : Thirds .forward f fw fb fv (fun i => atPos i ps) (fun i => atPos i pw) (fun i => atPos i pb) (fun i => atPos i pv)
      w [b] v := by
    constructor
    · intro i hi
      refine flags_same hw hf hfw ?_ fun hy => break_left nl hi
      unfold InNumberOf
      rw [number_left nn hi, len]
      exact and_congr_left fun _ => ⟨fun _ => hi, fun _ => by omega⟩
    · intro i hi
      have : i = 0 := by simpa using hi
      subst this
      refine flags_same hw hf hfb ?_ fun hy => ?_
      · unfold InNumberOf
        exact ⟨fun h => (number_blank nn h.2).elim, fun h => (number_blank (w := []) (v := []) nn h.2).elim⟩
      · exact ⟨fun h => (break_blank nl h).elim, fun h => (break_blank (w := []) (v := []) nl h).elim⟩
    · intro i hi
      rw [List.length_singleton, ← Nat.add_assoc]
      refine flags_same hw hf hfv ?_ fun hy => break_right nl i
      unfold InNumberOf
      rw [number_right nn, len]
      exact and_congr_left fun _ => ⟨fun _ => hi, fun _ => by omega⟩
    · exact ss.left
    · show atPos w.length ps = atPos w.length pw ++ atPos 0 pb
      rw [ss.blank, ss.ends, ss.b0]
      rfl
    · intro i h1 h2
      simp at h2
      omega
    · show atPos (w.length + 1) ps = atPos 1 pb ++ atPos 0 pv
      rw [ss.b1]
      exact ss.right 0
    · intro i _ _
      show atPos (w.length + (1 + i)) ps = atPos i pv
      rw [← Nat.add_assoc]
      exact ss.right i
  obtain ⟨made', hrun', htrace⟩ := run_thirds (cs := cs) np (listing_sized hok) (mainTable_single _ _ _) (by simp) thirds hrw hrb hrv
    (listing_left hok hcl hl nb w v _)
    (by rw [blank_run hok hcl hl nb np hrb]; exact listing_right hok hcl hl nb v)
    (by
      intro i hi pr o _
      refine allowed_same (bool_same (hf.prepunc i) (hfw.prepunc i) ?_) (bool_same (hf.postpunc i) (hfw.postpunc i) ?_) o
      · rw [before_left hb hi]
      · rw [afterWord_left hb hi, len]
        exact and_congr_right fun _ => and_congr_right fun _ => and_congr_left fun _ => ⟨fun _ => hi, fun _ => by omega⟩)
    (by
      intro i hi pr o ho
      have : i = 0 := by simpa using hi
      subst this
      have ho : o ∈ p.table.trie.find cs.lower [b] pr := ho
      rw [find_blank hok.trie hcl hl nb.entries] at ho
      cases ho)
    (by
      intro i hi pr o _
      rw [List.length_singleton, ← Nat.add_assoc]
      refine allowed_same (bool_same (hf.prepunc _) (hfv.prepunc i) ?_) (bool_same (hf.postpunc _) (hfv.postpunc i) ?_) o
      · rw [before_right hb]
      · rw [afterWord_right hb, len]
        exact and_congr_right fun _ => and_congr_right fun _ => and_congr_left fun _ => ⟨fun _ => hi, fun _ => by omega⟩)
  have hsame : made' = made := hrun'.unique hrun
  subst hsame
  rw [htr, htrace]
  constructor
  · rintro rfl
    exact ⟨_, _, _, (htw _).2 rfl, (htb _).2 rfl, (htv _).2 rfl, rfl⟩
  · rintro ⟨t₁, t₂, t₃, h1, h2, h3, rfl⟩
    rw [(htw _).1 h1, (htb _).1 h2, (htv _).1 h3]

end

/-! ## The property -/

theorem words_steps {sys : Sys} {rules : List Anchored} {steps : List Transform} {b : Char}
    (h : Pipeline.Compiles sys rules .forward steps) (hw : ∀ r ∈ rules, r.rule.AllowedIn .forward → r.rule.WithinWords b) :
    ∃ p, steps = [.primary p] ∧
      MainStage sys (TableCtx.compile sys.alpha (allowedRules rules .forward)) .forward (allowedRules rules .forward) p := by
  obtain ⟨correct, p, pass2, pass3, pass4, e, hp, g1, g2, g3, g4⟩ := C11_stages sys rules .forward steps h
  have no : ∀ k, ∀ r ∈ rules, r.rule.AllowedIn .forward → ∀ test action cons, r.rule ≠ .pass k test action cons := by
    intro k r hr ha test action cons e
    have := hw r hr ha
    rw [e] at this
    exact this
  rw [g1.absent (no _), g2.absent (no _), g3.absent (no _), g4.absent (no _)] at e
  exact ⟨p, e, hp⟩

theorem translates_primary {cs : Case} {spans : List Span} {input out : Text} {p : Primary} :
    Pipeline.Translates cs spans input [.primary p] out ↔ ∃ ts, p.Traces cs input spans ts ∧ out = outputOf ts := by
  constructor
  · rintro ⟨mid, ⟨ts, h, rfl⟩, rfl⟩
    exact ⟨ts, h, rfl⟩
  · rintro ⟨ts, h, rfl⟩
    exact ⟨_, ⟨ts, h, rfl⟩, rfl⟩

/-- **C75.** With a table whose lines are about what happens within words (`Rule.WithinWords`), a text is translated word by word:
the translation of two texts with a space between them is the translation of the one, that of the space and that of the
other, one after the other; and this for any two texts, also such as contain spaces themselves. -/
theorem C75_words (sys : Sys) (rules : List Anchored) (steps : List Transform) (h : Pipeline.Compiles sys rules .forward steps)
    (b : Char) (hw : ∀ r ∈ rules, r.rule.AllowedIn .forward → r.rule.WithinWords b)
    (hb : Blank (TableCtx.compile sys.alpha (allowedRules rules .forward)).classes b) (cs : Case) (hl : cs.lower b = [b])
    (w v out : Text) : Pipeline.Translates cs [] (w ++ b :: v) steps out ↔
      ∃ o₁ o₂ o₃, Pipeline.Translates cs [] w steps o₁ ∧ Pipeline.Translates cs [] [b] steps o₂ ∧
        Pipeline.Translates cs [] v steps o₃ ∧ out = o₁ ++ (o₂ ++ o₃) := by
  obtain ⟨p, rfl, hm⟩ := words_steps h hw
  have hw' : ∀ r ∈ allowedRules rules .forward, r.rule.WithinWords b := fun r hr => hw r (mem_allowed.1 hr).1 (mem_allowed.1 hr).2
  simp only [translates_primary, C75_main_stage hm hw' hb cs hl w v]
  constructor
  · rintro ⟨ts, ⟨t₁, t₂, t₃, h1, h2, h3, rfl⟩, rfl⟩
    exact ⟨_, _, _, ⟨t₁, h1, rfl⟩, ⟨t₂, h2, rfl⟩, ⟨t₃, h3, rfl⟩, by simp [outputOf]⟩
  · rintro ⟨_, _, _, ⟨t₁, h1, rfl⟩, ⟨t₂, h2, rfl⟩, ⟨t₃, h3, rfl⟩, rfl⟩
    exact ⟨_, ⟨t₁, t₂, t₃, h1, h2, h3, rfl⟩, by simp [outputOf]⟩

/-- Texts with a separator between them. -/
def joined {α : Type} (sep : List α) : List (List α) → List α
  | [] => []
  | [w] => w
  | w :: ws => w ++ (sep ++ joined sep ws)

/-- **C75**, for any number of words. -/
theorem C75_all_words (sys : Sys) (rules : List Anchored) (steps : List Transform) (h : Pipeline.Compiles sys rules .forward steps)
    (b : Char) (hw : ∀ r ∈ rules, r.rule.AllowedIn .forward → r.rule.WithinWords b)
    (hb : Blank (TableCtx.compile sys.alpha (allowedRules rules .forward)).classes b) (cs : Case) (hl : cs.lower b = [b])
    (ws outs : List Text) (hlen : outs.length = ws.length) (hne : ws ≠ []) (space : Text)
    (hs : Pipeline.Translates cs [] [b] steps space)
    (heach : ∀ i (hi : i < ws.length), Pipeline.Translates cs [] ws[i] steps (outs[i]'(hlen ▸ hi))) :
    Pipeline.Translates cs [] (joined [b] ws) steps (joined space outs) := by
  induction ws generalizing outs with
  | nil => exact absurd rfl hne
  | cons w ws ih =>
    cases outs with
    | nil => cases hlen
    | cons o outs =>
      have h0 := heach 0 (by simp)
      cases ws with
      | nil =>
        have : outs = [] := by simpa using hlen
        subst this
        exact h0
      | cons w' ws =>
        cases outs with
        | nil => simp at hlen
        | cons o' outs =>
          have := ih (o' :: outs) (by simpa using hlen) (by simp) fun i hi => heach (i + 1) (by simpa using hi)
          show Pipeline.Translates cs [] (w ++ b :: joined [b] (w' :: ws)) steps (o ++ (space ++ joined space (o' :: outs)))
          exact (C75_words sys rules steps h b hw hb cs hl _ _ _).2 ⟨_, _, _, h0, hs, this, rfl⟩

/-- **C75**, for the source of a table. -/
theorem C75_source (sys : Sys) (cs : Case) (table : Text) (rules : List (Rule × Loc)) (hp : parseTable table none = .ok rules)
    (b : Char) (hw : ∀ r ∈ anchor rules, r.rule.AllowedIn .forward → r.rule.WithinWords b)
    (hb : Blank (TableCtx.compile sys.alpha (allowedRules (anchor rules) .forward)).classes b) (hl : cs.lower b = [b])
    (w v out : Text) : SourceTranslates sys cs table .forward [] (w ++ b :: v) out ↔
      ∃ o₁ o₂ o₃, SourceTranslates sys cs table .forward [] w o₁ ∧ SourceTranslates sys cs table .forward [] [b] o₂ ∧
        SourceTranslates sys cs table .forward [] v o₃ ∧ out = o₁ ++ (o₂ ++ o₃) := by
  have key : ∀ {steps}, translatorFromSource sys table .forward = .ok steps → Pipeline.Compiles sys (anchor rules) .forward steps := by
    intro steps h
    unfold translatorFromSource at h
    rw [hp] at h
    simp only [fromTableSource] at h
    split at h
    · cases h
    · split at h
      · cases h
      · next e => cases h; exact compile_compiles e
  unfold SourceTranslates
  constructor
  · rintro ⟨steps, e, h⟩
    obtain ⟨o₁, o₂, o₃, h1, h2, h3, rfl⟩ := (C75_words sys _ steps (key e) b hw hb cs hl w v out).1 h
    exact ⟨o₁, o₂, o₃, ⟨steps, e, h1⟩, ⟨steps, e, h2⟩, ⟨steps, e, h3⟩, rfl⟩
  · rintro ⟨o₁, o₂, o₃, ⟨s₁, e₁, h1⟩, ⟨s₂, e₂, h2⟩, ⟨s₃, e₃, h3⟩, rfl⟩
    rw [e₁] at e₂ e₃
    cases e₂
    cases e₃
    exact ⟨s₁, e₁, (C75_words sys _ s₁ (key e₁) b hw hb cs hl w v _).2 ⟨o₁, o₂, o₃, h1, h2, h3, rfl⟩⟩

/-! ## An example -/

instance decidableWithinWords (b : Char) (r : Rule) : Decidable (r.WithinWords b) := by
  cases r <;> (unfold Rule.WithinWords; infer_instance)

/-- A character is a blank if all its classes are that of spaces. -/
theorem blank_of_check {cl : CharClasses} {b : Char} (h1 : cl.has .space b = true)
    (h2 : cl.all (fun x => x.2 != b || x.1 == .space) = true) : Blank cl b := by
  refine ⟨h1, fun k hk => ?_⟩
  have hx : (k, b) ∈ cl := List.contains_iff_mem.1 hk
  have := List.all_eq_true.1 h2 _ hx
  simpa using this

/-- Words, contractions, numbers, capitals and punctuation. -/
def wordTable : String :=
  "space \\s 0\nlowercase a 1\nlowercase b 12\nlowercase c 14\nuppercase A 1\nuppercase B 12\nlitdigit 1 1\npunctuation . 256\n" ++
  "always ab 345\nword b 5-12\nendword c 4-14\nmidnum . 3\nprepunc . 236\npostpunc . 356\ncontraction ca\nnocontractsign 56\n" ++
  "capsletter 6\nbegcapsword 6-6\nendcapsword 6-3\nnumsign 3456\nnonumsign 56\nnumericnocontchars abc\nnoback always bb 23\n"

def wordRules : List Anchored := anchor ((parseTable wordTable.toList none).toOption.getD [])

theorem wordTable_rules : (parseTable wordTable.toList none).toOption.isSome = true := by decide +kernel

theorem wordRules_within : ∀ r ∈ wordRules, r.rule.WithinWords ' ' := by decide +kernel

theorem wordRules_blank : Blank (TableCtx.compile demoSys.alpha (allowedRules wordRules .forward)).classes ' ' :=
  blank_of_check (by decide +kernel) (by decide +kernel)

/-- Non-vacuity of C75: the table translates a text with numbers, capitals, contractions and punctuation, ... -/
example : SourceTranslates demoSys asciiCase wordTable.toList .forward [] "ABa b 1.1c ca".toList "⠠⠠⠜⠠⠄⠁⠀⠐⠃⠀⠼⠁⠦⠁⠰⠉⠀⠰⠉⠁".toList :=
  runSource_sound (fuel := 40) (by decide +kernel)

/-- ... and the words of this text one by one. -/
example : SourceTranslates demoSys asciiCase wordTable.toList .forward [] "ABa".toList "⠠⠠⠜⠠⠄⠁".toList ∧
    SourceTranslates demoSys asciiCase wordTable.toList .forward [] "b".toList "⠐⠃".toList ∧
    SourceTranslates demoSys asciiCase wordTable.toList .forward [] "ca".toList "⠰⠉⠁".toList :=
  ⟨runSource_sound (fuel := 40) (by decide +kernel), runSource_sound (fuel := 40) (by decide +kernel),
   runSource_sound (fuel := 40) (by decide +kernel)⟩

/-- The theorem applies to the table of the example and to any two texts. -/
example (w v o₁ o₂ : Text) (h1 : SourceTranslates demoSys asciiCase wordTable.toList .forward [] w o₁)
    (h2 : SourceTranslates demoSys asciiCase wordTable.toList .forward [] v o₂) :
    SourceTranslates demoSys asciiCase wordTable.toList .forward [] (w ++ ' ' :: v) (o₁ ++ ("⠀".toList ++ o₂)) := by
  cases e : parseTable wordTable.toList none with
  | error x => have := wordTable_rules; rw [e] at this; cases this
  | ok rules =>
    have hr : anchor rules = wordRules := by unfold wordRules; rw [e]; rfl
    refine (C75_source demoSys asciiCase _ rules e ' ' ?_ ?_ (by decide +kernel) w v _).2
      ⟨_, _, _, h1, runSource_sound (fuel := 40) (by decide +kernel), h2, rfl⟩
    · rw [hr]; exact fun r hr' _ => wordRules_within r hr'
    · rw [hr]; exact wordRules_blank

/-- **C75 is false of the code** for tables with a letter sign: a letter that stands alone gets the sign at the beginning of a
text, but not after a space. -/
theorem C75_letter_sign_wrong :
    let table := "space \\s 0\nlowercase a 1\nletsign 56\n".toList
    SourceTranslates demoSys asciiCase table .forward [] "a".toList "⠰⠁".toList ∧
      SourceTranslates demoSys asciiCase table .forward [] " ".toList "⠀".toList ∧
      SourceTranslates demoSys asciiCase table .forward [] "a a".toList "⠰⠁⠀⠁".toList :=
  ⟨runSource_sound (fuel := 40) (by decide +kernel), runSource_sound (fuel := 40) (by decide +kernel),
   runSource_sound (fuel := 40) (by decide +kernel)⟩

end Louis
