import Verif.Spec.Lines
import Verif.Model.RuleParser
import Verif.Props.OperandPieces
import Verif.Props.TestGrammar
import Verif.Props.MatchGrammar
import Verif.Lemmas.DecEq

/-!
# C58: the grammar of a line of a table
-/

namespace Louis

/-! ## Single operands -/

theorem bind_iff {α β : Type} (p : P α) (f : α → P β) (ts rest : List Text) (b : β) :
    (p >>= f) ts = some (b, rest) ↔ ∃ a mid, p ts = some (a, mid) ∧ f a mid = some (b, rest) := by
  show P.bind p f ts = _ ↔ _
  unfold P.bind
  cases h : p ts with
  | none => simp
  | some r =>
    obtain ⟨a, mid⟩ := r
    constructor
    · intro h'; exact ⟨a, mid, rfl, h'⟩
    · rintro ⟨a', mid', he, h'⟩; cases he; exact h'

theorem pure_iff {α : Type} (a b : α) (ts rest : List Text) :
    (pure a : P α) ts = some (b, rest) ↔ a = b ∧ ts = rest := by
  show P.pure a ts = _ ↔ _
  simp [P.pure]

theorem conv_iff {α : Type} (f : Text → Option α) (ts rest : List Text) (a : α) :
    P.conv f ts = some (a, rest) ↔ ∃ w, ts = w :: rest ∧ f w = some a := by
  cases ts with
  | nil => simp [P.conv]
  | cons t ts =>
    simp only [P.conv, Option.map_eq_some_iff, List.cons.injEq, Prod.mk.injEq]
    constructor
    · rintro ⟨b, hb, rfl, rfl⟩; exact ⟨t, ⟨rfl, rfl⟩, hb⟩
    · rintro ⟨w, ⟨rfl, rfl⟩, hw⟩; exact ⟨a, hw, rfl, rfl⟩

theorem conv_rel {α : Type} {f : Text → Option α} {a : α} {R : Text → Prop} (h : ∀ w, f w = some a ↔ R w)
    (ts rest : List Text) : P.conv f ts = some (a, rest) ↔ ∃ w, ts = w :: rest ∧ R w := by
  rw [conv_iff]
  simp only [h]

theorem next_iff (ts rest : List Text) (a : Text) : pFilename ts = some (a, rest) ↔ ts = a :: rest := by
  cases ts <;> simp [pFilename, P.next]

theorem require_iff (b : Bool) (ts rest : List Text) (u : Unit) :
    P.require b ts = some (u, rest) ↔ b = true ∧ ts = rest := by
  cases b <;> simp [P.require]

theorem nextOpt_iff (ts rest : List Text) (u : Option Text) :
    P.nextOpt ts = some (u, rest) ↔ (ts = [] ∧ u = none ∧ rest = []) ∨ ∃ w, ts = w :: rest ∧ u = some w := by
  cases ts with
  | nil => simp [P.nextOpt, eq_comm]
  | cons t ts =>
    simp only [P.nextOpt, Option.some.injEq, Prod.mk.injEq, List.cons.injEq, reduceCtorEq, false_and, false_or]
    constructor
    · rintro ⟨rfl, rfl⟩; exact ⟨t, ⟨rfl, rfl⟩, rfl⟩
    · rintro ⟨w, ⟨rfl, rfl⟩, rfl⟩; exact ⟨rfl, rfl⟩

theorem pChars_iff (ts rest : List Text) (t : Text) :
    pChars ts = some (t, rest) ↔ ∃ w, ts = w :: rest ∧ CharsSrc w t := by
  rw [pChars, conv_iff]
  simp only [C35_decoding_is_exact, CharsSrc]

theorem pOneChar_iff (ts rest : List Text) (c : Char) :
    pOneChar ts = some (c, rest) ↔ ∃ w, ts = w :: rest ∧ CharSrc w c := by
  refine conv_rel (fun w => ?_) ts rest
  rw [CharSrc, ← C35_decoding_is_exact]
  split
  · next d h => rw [h]; simp
  · next h =>
    constructor
    · intro h'; cases h'
    · intro h'; exact absurd h' (h c)

theorem pName_iff (ts rest : List Text) (n : Text) :
    pName ts = some (n, rest) ↔ ts = n :: rest ∧ NameSrc n := by
  rw [pName, conv_iff]
  have key : ∀ c : Char, (isDigit c || isAsciiAlpha c) = true ↔ c ∈ nameLetters := by
    intro c
    by_cases hc : c.toNat < 128
    · have := ascii_all (fun c => (isDigit c || isAsciiAlpha c) == decide (c ∈ nameLetters)) (by decide +kernel) c hc
      simp only [beq_iff_eq] at this
      rw [this, decide_eq_true_iff]
    · constructor
      · intro h
        exfalso
        simp [isDigit, isAsciiAlpha] at h
        omega
      · intro h
        exfalso
        have : ∀ c ∈ nameLetters, c.toNat < 128 := by decide +kernel
        exact hc (this c h)
  constructor
  · rintro ⟨w, rfl, h⟩
    split at h
    · next hw =>
      cases h
      exact ⟨rfl, fun c hc => (key c).mp (List.all_eq_true.mp hw c hc)⟩
    · cases h
  · rintro ⟨rfl, h⟩
    refine ⟨n, rfl, ?_⟩
    rw [if_pos]
    exact List.all_eq_true.mpr fun c hc => (key c).mpr (h c hc)

theorem pExplicitDots_iff (ts rest : List Text) (cs : Cells) :
    pExplicitDots ts = some (cs, rest) ↔ ∃ w, ts = w :: rest ∧ Denotes w cs := by
  rw [pExplicitDots, conv_iff]
  simp only [C54_dots_operand]

theorem not_denotes_eq (cs : Cells) : ¬ Denotes ['='] cs := by
  rw [← C54_dots_operand]
  have : Cells.parse ['='] = none := by decide +kernel
  rw [this]; simp

theorem pDots_iff (ts rest : List Text) (b : Braille) :
    pDots ts = some (b, rest) ↔ ∃ w, ts = w :: rest ∧ BrailleSrc w b := by
  rw [pDots, conv_iff]
  have key : ∀ w, (if w = ['='] then some Braille.implicit else (Cells.parse w).map .explicit) = some b ↔ BrailleSrc w b := by
    intro w
    split
    · next h =>
      subst h
      constructor
      · intro h; cases h; exact .same
      · intro h; cases h with
        | same => rfl
        | cells w cs h => exact absurd h (not_denotes_eq cs)
    · next h =>
      rw [Option.map_eq_some_iff]
      constructor
      · rintro ⟨cs, hcs, rfl⟩; exact .cells _ _ ((C54_dots_operand _ _).mp hcs)
      · intro h'; cases h' with
        | same => exact absurd rfl h
        | cells w cs h' => exact ⟨cs, (C54_dots_operand _ _).mpr h', rfl⟩
  simp only [key]

theorem pPosition_iff (ts rest : List Text) (b : Bool) :
    pPosition ts = some (b, rest) ↔ ∃ w, ts = w :: rest ∧ PositionSrc w b := by
  rw [pPosition, conv_iff]
  have key : ∀ w : Text, (if w = "before".toList then some true else if w = "after".toList then some false else none) = some b
      ↔ PositionSrc w b := by
    intro w
    constructor
    · intro h
      split at h
      · next e => subst e; cases h; exact .before
      · split at h
        · next e => subst e; cases h; exact .after
        · cases h
    · intro h
      cases h with
      | before => simp
      | after => rw [if_neg (by decide), if_pos rfl]
  simp only [key]

/-- One cell, as `Cell.parse` reads it. -/
theorem cellParse_iff (w : Text) (c : Cell) : Cell.parse w = some c ↔ CellSrc w c := by
  unfold CellSrc
  constructor
  · intro h
    have hne : w ≠ [] := by intro e; subst e; simp [Cell.parse] at h
    rw [Cell.parse, if_neg hne, dotsOf_iff] at h
    refine ⟨.last w c hne h, ?_⟩
    intro hm
    have : Dot.ofChar '-' ∈ c.map some := h ▸ List.mem_map_of_mem hm
    rw [show Dot.ofChar '-' = none by decide +kernel] at this
    simp at this
  · rintro ⟨h, hd⟩
    cases h with
    | last _ _ hs hc => rw [Cell.parse, if_neg hs, dotsOf_iff]; exact hc
    | more s c rest cs hs hc h => exact absurd (by simp) hd

theorem pCell_iff (ts rest : List Text) (c : Cell) :
    pCell ts = some (c, rest) ↔ ∃ w, ts = w :: rest ∧ CellSrc w c := by
  rw [pCell, conv_iff]
  simp only [cellParse_iff]

/-- Comma-separated items of which no one contains a comma. -/
theorem listSrc_iff {α : Type} (f : Text → Option α) (item : Text → α → Prop) (hf : ∀ w a, f w = some a ↔ item w a)
    (hno : ∀ w a, item w a → ',' ∉ w) : ∀ (n : Nat) (w : Text) (as : List α), w.length ≤ n →
    (allSome f (splitOn ',' w) = some as ↔ ListSrc item w as) := by
  intro n
  induction n with
  | zero =>
    intro w as hn
    have : w = [] := List.length_eq_zero_iff.mp (by omega)
    subst this
    simp only [splitOn, allSome]
    constructor
    · intro h
      cases hw : f [] with
      | none => rw [hw] at h; cases h
      | some a => rw [hw] at h; cases h; exact .last _ _ ((hf _ _).mp hw)
    · intro h
      generalize he : ([] : Text) = w at h
      cases h with
      | last _ a h => subst he; rw [(hf _ _).mpr h]; rfl
      | more v rest a as h t => simp at he
  | succ n ih =>
    intro w as hn
    rcases splitOn_cases ',' w with hs | ⟨p, rest, rfl, hp⟩
    · rw [splitOn_none _ _ hs]
      simp only [allSome]
      constructor
      · intro h
        cases hw : f w with
        | none => rw [hw] at h; cases h
        | some a => rw [hw] at h; cases h; exact .last _ _ ((hf _ _).mp hw)
      · intro h
        cases h with
        | last _ a h => rw [(hf _ _).mpr h]; rfl
        | more v rest a as h t => exact absurd (by simp) hs
    · rw [splitOn_append _ _ _ hp]
      have ih' := fun as => ih rest as (by simp at hn; omega)
      simp only [allSome]
      constructor
      · intro h
        cases hw : f p with
        | none => rw [hw] at h; cases h
        | some a =>
          rw [hw] at h
          simp only [Option.map_eq_some_iff] at h
          obtain ⟨bs, hbs, rfl⟩ := h
          exact .more _ _ _ _ ((hf _ _).mp hw) ((ih' bs).mp hbs)
      · intro h
        generalize he : p ++ ',' :: rest = w at h
        cases h with
        | last _ a h => subst he; exact absurd (by simp) (hno _ _ h)
        | more v rest' a as h t =>
          have hv := hno _ _ h
          have hsplit : splitOn ',' (p ++ ',' :: rest) = splitOn ',' (v ++ ',' :: rest') := by rw [he]
          rw [splitOn_append _ _ _ hp, splitOn_append _ _ _ hv] at hsplit
          have hpv : p = v := (List.cons.inj hsplit).1
          subst hpv
          have : rest = rest' := by simpa using he
          subst this
          rw [(hf _ _).mpr h]
          simp only [Option.map_eq_some_iff]
          exact ⟨as, (ih' as).mpr t, rfl⟩

theorem denotes_no_comma (w : Text) (cs : Cells) (h : Denotes w cs) : ',' ∉ w := by
  have one : ∀ (s : Text) (c : Cell), s.map Dot.ofChar = c.map some → ',' ∉ s := by
    intro s c hc hm
    have : Dot.ofChar ',' ∈ c.map some := hc ▸ List.mem_map_of_mem hm
    rw [show Dot.ofChar ',' = none by decide +kernel] at this
    simp at this
  induction h with
  | last s c hs hc => exact one s c hc
  | more s c rest cs hs hc h ih =>
    intro hm
    rcases List.mem_append.mp hm with h1 | h1
    · exact one s c hc h1
    · rcases List.mem_cons.mp h1 with h2 | h2
      · exact absurd h2 (by decide)
      · exact ih h2

theorem pManyCells_iff (ts rest : List Text) (cs : List Cells) :
    pManyCells ts = some (cs, rest) ↔ ∃ w, ts = w :: rest ∧ ListSrc Denotes w cs := by
  rw [pManyCells, conv_iff]
  simp only [fun w => listSrc_iff Cells.parse Denotes C54_dots_operand denotes_no_comma w.length w cs (Nat.le_refl _)]

theorem pManyCell_iff (ts rest : List Text) (cs : Cells) :
    pManyCell ts = some (cs, rest) ↔ ∃ w, ts = w :: rest ∧ ListSrc CellSrc w cs := by
  rw [pManyCell, conv_iff]
  have hf : ∀ (w : Text) (c : Cell), (if '-' ∈ w then none else Cell.parse w) = some c ↔ CellSrc w c := by
    intro w c
    split
    · next h =>
      constructor
      · intro h'; cases h'
      · intro h'; exact absurd h h'.2
    · exact cellParse_iff w c
  simp only [fun w => listSrc_iff _ CellSrc hf (fun w c h => denotes_no_comma w _ h.1) w.length w cs (Nat.le_refl _)]

theorem pTest_iff (ts rest : List Text) (t : List TestInstr) :
    pTest ts = some (t, rest) ↔ ∃ w, ts = w :: rest ∧ TestsSrc w t ∧ t ≠ [] := by
  rw [pTest, conv_iff]
  have key : ∀ w, (parseTest w).toOption = some t ↔ TestsSrc w t ∧ t ≠ [] := by
    intro w
    rw [← C55_test_grammar]
    cases parseTest w <;> simp [Except.toOption]
  simp only [key]

theorem pAction_iff (ts rest : List Text) (t : List ActionInstr) :
    pAction ts = some (t, rest) ↔ ∃ w, ts = w :: rest ∧ ActionsSrc w t ∧ t ≠ [] := by
  rw [pAction, conv_iff]
  have key : ∀ w, (parseAction w).toOption = some t ↔ ActionsSrc w t ∧ t ≠ [] := by
    intro w
    rw [← C55_action_grammar]
    cases parseAction w <;> simp [Except.toOption]
  simp only [key]

theorem pMatch_iff (side : Side) (ts rest : List Text) (ps : List Pattern) :
    pMatch side ts = some (ps, rest) ↔ ∃ w, ts = w :: rest ∧ PatternsSrc side w ps := by
  refine conv_rel (fun w => ?_) ts rest
  unfold PatternsSrc
  simp only [← C35_decoding_is_exact, ← C55_match_grammar]
  cases unescape .matchPattern w with
  | none => simp
  | some s =>
    simp only [Option.some.injEq, exists_eq_left']
    cases parseMatch side s <;> simp [Except.toOption]

theorem pNumber_iff (ts rest : List Text) (i : Int) :
    pNumber ts = some (i, rest) ↔ ∃ w, ts = w :: rest ∧ IntSrc w i := by
  rw [pNumber, conv_iff]
  have hnat : ∀ (ds : Text) (n : Nat), (if ds = [] ∨ !ds.all isDigit then none else some (decFrom 0 ds)) = some n ↔
      ds ≠ [] ∧ DecValue ds n := by
    intro ds n
    rw [decValue_iff]
    by_cases h1 : ds = []
    · simp [h1]
    · by_cases h2 : ds.all isDigit = true
      · have : ∀ c ∈ ds, isDigit c = true := by simpa using h2
        rw [if_neg (by simp [h1, h2])]
        simp only [Option.some.injEq]
        exact ⟨fun h => ⟨h1, this, h⟩, fun h => h.2.2⟩
      · have : ¬ ∀ c ∈ ds, isDigit c = true := by simpa using h2
        simp [h1, h2, this]
  have digit : ∀ (ds : Text) (n : Nat) (c : Char), ds ≠ [] → DecValue ds n → ds.head? = some c → isDigit c = true := by
    intro ds n c hne h hc
    rw [decValue_iff] at h
    cases ds with
    | nil => exact absurd rfl hne
    | cons d ds => cases hc; exact h.1 _ (by simp)
  have key : ∀ w, parseInt w = some i ↔ IntSrc w i := by
    intro w
    have fin : ∀ (ds : Text) (bound : Nat → Prop) [DecidablePred bound] (g : Nat → Int),
        (match (if ds = [] ∨ !ds.all isDigit then none else some (decFrom 0 ds)) with
          | some n => if bound n then some (g n) else none
          | none => none) = some i ↔ ∃ n, ds ≠ [] ∧ DecValue ds n ∧ bound n ∧ g n = i := by
      intro ds bound _ g
      generalize hv : (if ds = [] ∨ !ds.all isDigit then none else some (decFrom 0 ds)) = v
      cases v with
      | none =>
        constructor
        · intro h; cases h
        · rintro ⟨n, h1, h2, -⟩
          rw [(hnat ds n).mpr ⟨h1, h2⟩] at hv; cases hv
      | some m =>
        have hm := (hnat ds m).mp hv
        simp only
        constructor
        · intro h
          split at h
          · next hlt => exact ⟨m, hm.1, hm.2, hlt, by simpa using h⟩
          · cases h
        · rintro ⟨n, h1, h2, h3, h4⟩
          have := (hnat ds n).mpr ⟨h1, h2⟩
          rw [hv] at this
          cases this
          rw [if_pos h3, h4]
    constructor
    · intro h
      unfold parseInt at h
      split at h
      · next ds =>
        obtain ⟨n, h1, h2, h3, rfl⟩ := (fin ds (· ≤ 2 ^ 31) (fun n => -(n : Int))).mp h
        exact .minus ds n h1 h2 (by omega)
      · next ds =>
        obtain ⟨n, h1, h2, h3, rfl⟩ := (fin ds (· < 2 ^ 31) (fun n => (n : Int))).mp h
        exact .plus ds n h1 h2 (by omega)
      · next ds =>
        obtain ⟨n, h1, h2, h3, rfl⟩ := (fin w (· < 2 ^ 31) (fun n => (n : Int))).mp h
        exact .plain w n h1 h2 (by omega)
    · intro h
      unfold parseInt
      cases h with
      | plain ds n hne h hn =>
        split
        · have := digit _ n _ hne h rfl
          exact absurd this (by decide)
        · have := digit _ n _ hne h rfl
          exact absurd this (by decide)
        · exact (fin w (· < 2 ^ 31) (fun n => (n : Int))).mpr ⟨n, hne, h, by omega, rfl⟩
      | plus ds n hne h hn => exact (fin ds (· < 2 ^ 31) (fun n => (n : Int))).mpr ⟨n, hne, h, by omega, rfl⟩
      | minus ds n hne h hn => exact (fin ds (· ≤ 2 ^ 31) (fun n => -(n : Int))).mpr ⟨n, hne, h, by omega, rfl⟩
  simp only [key]

theorem pManyNames_iff (ts rest : List Text) (u : Unit) :
    pManyNames ts = some (u, rest) ↔ rest = [] ∧ ∃ a b more, ts = a :: b :: more := by
  unfold pManyNames
  match ts with
  | [] => simp
  | [a] => simp
  | a :: b :: more => simp [eq_comm]

theorem length_two {α : Type} {l : List α} (h : l.length = 2) : ∃ a b, l = [a, b] := by
  match l, h with
  | [a, b], _ => exact ⟨a, b, rfl⟩

/-! ## Opcodes -/

theorem opcodeOf_mem (word : Text) (op : Opcode) (h : opcodeOf word = some op) :
    ∃ s : String, (s, op) ∈ opcodeWords ∧ word = s.toList := by
  rw [opcodeOf, Option.map_eq_some_iff] at h
  obtain ⟨⟨s, o⟩, hf, rfl⟩ := h
  have hp := List.find?_some (p := fun p : String × Opcode => p.1.toList == word) hf
  exact ⟨s, List.mem_of_find?_eq_some hf, (eq_of_beq hp).symm⟩

theorem opcodeOf_words : ∀ p ∈ opcodeWords, opcodeOf p.1.toList = some p.2 := by decide +kernel

/-- The word of an opcode. -/
def wordOf (op : Opcode) : String := ((opcodeWords.find? (·.2 == op)).map (·.1)).getD ""

theorem wordOf_mem : ∀ p ∈ opcodeWords, p.1 = wordOf p.2 := by decide +kernel

theorem wordOf_eq {s : String} {op : Opcode} (h : (s, op) ∈ opcodeWords) : s = wordOf op := wordOf_mem _ h

/-- The words that may come before an opcode are no opcodes. -/
theorem opcodeWords_other : ∀ p ∈ opcodeWords, p.1.toList ∉ ["nofor".toList, "noback".toList, "nocross".toList,
    "before".toList, "after".toList, "empmatchbefore".toList, "empmatchafter".toList] := by decide +kernel

theorem accepts_none (cons : RuleCons) : Allowed.none.accepts cons = true ↔ cons = .none := by
  obtain ⟨a, b, c⟩ := cons
  simp [Allowed.accepts, RuleCons.none, and_assoc]

theorem accepts_direction (cons : RuleCons) : Allowed.direction.accepts cons = true ↔ cons.nocross = false := by
  simp [Allowed.accepts]

/-- What `operands` accepts is in the grammar. -/
theorem operands_sound (s : String) (op : Opcode) (hs : (s, op) ∈ opcodeWords) (cons : RuleCons) (withs : List WithClass)
    (hc : op.allowed.accepts cons = true) (ts rest : List Text) (r : Rule) (h : operands op cons withs ts = some (r, rest)) :
    ∃ used extra, ts = used ++ extra ∧ RuleSrc cons withs (s.toList :: used) r := by
  cases op
  case text k =>
    simp only [operands, bind_iff, pure_iff, pChars_iff, pDots_iff] at h
    obtain ⟨t, _, ⟨v, rfl, hv⟩, b, _, ⟨w, rfl, hw⟩, rfl, rfl⟩ := h
    refine ⟨[v, w], _, rfl, ?_⟩
    have hword := wordOf_eq hs
    cases k
    case word =>
      obtain rfl : s = "word" := hword.trans (by decide +kernel)
      exact .word _ _ _ _ hv hw ((accepts_direction _).mp hc)
    all_goals exact .text s _ _ _ _ _ (by rw [hword]; decide +kernel) hv hw
  case charDef k =>
    simp only [operands, bind_iff, pure_iff, pOneChar_iff, pExplicitDots_iff] at h
    obtain ⟨c, _, ⟨v, rfl, hv⟩, b, _, ⟨w, rfl, hw⟩, rfl, rfl⟩ := h
    refine ⟨[v, w], _, rfl, ?_⟩
    have hword := wordOf_eq hs
    have hc' := (accepts_direction _).mp hc
    cases k
    all_goals exact .charDef s _ _ _ _ _ (by rw [hword]; decide +kernel) hv hw hc'
  case pass k =>
    simp only [operands, bind_iff, pure_iff, pTest_iff, pAction_iff] at h
    obtain ⟨c, _, ⟨v, rfl, hv, hv'⟩, b, _, ⟨w, rfl, hw, hw'⟩, rfl, rfl⟩ := h
    refine ⟨[v, w], _, rfl, ?_⟩
    have hword := wordOf_eq hs
    have hc' := (accepts_direction _).mp hc
    cases k
    all_goals exact .pass s _ _ _ _ _ (by rw [hword]; decide +kernel) hv hv' hw hw' hc'
  case undefined =>
    obtain rfl : s = "undefined" := (wordOf_eq hs).trans (by decide +kernel)
    simp only [operands, bind_iff, pure_iff, pExplicitDots_iff] at h
    obtain ⟨cells, _, ⟨w, rfl, hw⟩, rfl, rfl⟩ := h
    exact ⟨[w], _, rfl, .dots "undefined" _ w cells (by simp [dotsOpcodes]) hw ((accepts_none _).mp hc)⟩
  case begcaps =>
    obtain rfl : s = "begcaps" := (wordOf_eq hs).trans (by decide +kernel)
    simp only [operands, bind_iff, pure_iff, pExplicitDots_iff] at h
    obtain ⟨cells, _, ⟨w, rfl, hw⟩, rfl, rfl⟩ := h
    exact ⟨[w], _, rfl, .dots "begcaps" _ w cells (by simp [dotsOpcodes]) hw ((accepts_none _).mp hc)⟩
  case endcaps =>
    obtain rfl : s = "endcaps" := (wordOf_eq hs).trans (by decide +kernel)
    simp only [operands, bind_iff, pure_iff, pExplicitDots_iff] at h
    obtain ⟨cells, _, ⟨w, rfl, hw⟩, rfl, rfl⟩ := h
    exact ⟨[w], _, rfl, .dots "endcaps" _ w cells (by simp [dotsOpcodes]) hw ((accepts_none _).mp hc)⟩
  case begcapsphrase =>
    obtain rfl : s = "begcapsphrase" := (wordOf_eq hs).trans (by decide +kernel)
    simp only [operands, bind_iff, pure_iff, pExplicitDots_iff] at h
    obtain ⟨cells, _, ⟨w, rfl, hw⟩, rfl, rfl⟩ := h
    exact ⟨[w], _, rfl, .dots "begcapsphrase" _ w cells (by simp [dotsOpcodes]) hw ((accepts_none _).mp hc)⟩
  case letsign =>
    obtain rfl : s = "letsign" := (wordOf_eq hs).trans (by decide +kernel)
    simp only [operands, bind_iff, pure_iff, pExplicitDots_iff] at h
    obtain ⟨cells, _, ⟨w, rfl, hw⟩, rfl, rfl⟩ := h
    exact ⟨[w], _, rfl, .dots "letsign" _ w cells (by simp [dotsOpcodes]) hw ((accepts_none _).mp hc)⟩
  case numsign =>
    obtain rfl : s = "numsign" := (wordOf_eq hs).trans (by decide +kernel)
    simp only [operands, bind_iff, pure_iff, pExplicitDots_iff] at h
    obtain ⟨cells, _, ⟨w, rfl, hw⟩, rfl, rfl⟩ := h
    exact ⟨[w], _, rfl, .dots "numsign" _ w cells (by simp [dotsOpcodes]) hw ((accepts_none _).mp hc)⟩
  case capsletter =>
    obtain rfl : s = "capsletter" := (wordOf_eq hs).trans (by decide +kernel)
    simp only [operands, bind_iff, pure_iff, pExplicitDots_iff] at h
    obtain ⟨cells, _, ⟨w, rfl, hw⟩, rfl, rfl⟩ := h
    exact ⟨[w], _, rfl, .dotsDir "capsletter" _ w cells (by simp [dotsDirOpcodes]) hw ((accepts_direction _).mp hc)⟩
  case begcapsword =>
    obtain rfl : s = "begcapsword" := (wordOf_eq hs).trans (by decide +kernel)
    simp only [operands, bind_iff, pure_iff, pExplicitDots_iff] at h
    obtain ⟨cells, _, ⟨w, rfl, hw⟩, rfl, rfl⟩ := h
    exact ⟨[w], _, rfl, .dotsDir "begcapsword" _ w cells (by simp [dotsDirOpcodes]) hw ((accepts_direction _).mp hc)⟩
  case endcapsword =>
    obtain rfl : s = "endcapsword" := (wordOf_eq hs).trans (by decide +kernel)
    simp only [operands, bind_iff, pure_iff, pExplicitDots_iff] at h
    obtain ⟨cells, _, ⟨w, rfl, hw⟩, rfl, rfl⟩ := h
    exact ⟨[w], _, rfl, .dotsDir "endcapsword" _ w cells (by simp [dotsDirOpcodes]) hw ((accepts_direction _).mp hc)⟩
  case nocontractsign =>
    obtain rfl : s = "nocontractsign" := (wordOf_eq hs).trans (by decide +kernel)
    simp only [operands, bind_iff, pure_iff, pExplicitDots_iff] at h
    obtain ⟨cells, _, ⟨w, rfl, hw⟩, rfl, rfl⟩ := h
    exact ⟨[w], _, rfl, .dotsDir "nocontractsign" _ w cells (by simp [dotsDirOpcodes]) hw ((accepts_direction _).mp hc)⟩
  case nonumsign =>
    obtain rfl : s = "nonumsign" := (wordOf_eq hs).trans (by decide +kernel)
    simp only [operands, bind_iff, pure_iff, pExplicitDots_iff] at h
    obtain ⟨cells, _, ⟨w, rfl, hw⟩, rfl, rfl⟩ := h
    exact ⟨[w], _, rfl, .dotsDir "nonumsign" _ w cells (by simp [dotsDirOpcodes]) hw ((accepts_direction _).mp hc)⟩
  case begcomp =>
    obtain rfl : s = "begcomp" := (wordOf_eq hs).trans (by decide +kernel)
    simp only [operands, bind_iff, pure_iff, pExplicitDots_iff] at h
    obtain ⟨cells, _, ⟨w, rfl, hw⟩, rfl, rfl⟩ := h
    exact ⟨[w], _, rfl, .dotsDir "begcomp" _ w cells (by simp [dotsDirOpcodes]) hw ((accepts_direction _).mp hc)⟩
  case endcomp =>
    obtain rfl : s = "endcomp" := (wordOf_eq hs).trans (by decide +kernel)
    simp only [operands, bind_iff, pure_iff, pExplicitDots_iff] at h
    obtain ⟨cells, _, ⟨w, rfl, hw⟩, rfl, rfl⟩ := h
    exact ⟨[w], _, rfl, .dotsDir "endcomp" _ w cells (by simp [dotsDirOpcodes]) hw ((accepts_direction _).mp hc)⟩
  case capsmodechars =>
    obtain rfl : s = "capsmodechars" := (wordOf_eq hs).trans (by decide +kernel)
    simp only [operands, bind_iff, pure_iff, pChars_iff] at h
    obtain ⟨t, _, ⟨w, rfl, hw⟩, rfl, rfl⟩ := h
    exact ⟨[w], _, rfl, .chars "capsmodechars" _ w t (by simp [charsOpcodes]) hw ((accepts_none _).mp hc)⟩
  case noletsign =>
    obtain rfl : s = "noletsign" := (wordOf_eq hs).trans (by decide +kernel)
    simp only [operands, bind_iff, pure_iff, pChars_iff] at h
    obtain ⟨t, _, ⟨w, rfl, hw⟩, rfl, rfl⟩ := h
    exact ⟨[w], _, rfl, .chars "noletsign" _ w t (by simp [charsOpcodes]) hw ((accepts_none _).mp hc)⟩
  case noletsignbefore =>
    obtain rfl : s = "noletsignbefore" := (wordOf_eq hs).trans (by decide +kernel)
    simp only [operands, bind_iff, pure_iff, pChars_iff] at h
    obtain ⟨t, _, ⟨w, rfl, hw⟩, rfl, rfl⟩ := h
    exact ⟨[w], _, rfl, .chars "noletsignbefore" _ w t (by simp [charsOpcodes]) hw ((accepts_none _).mp hc)⟩
  case noletsignafter =>
    obtain rfl : s = "noletsignafter" := (wordOf_eq hs).trans (by decide +kernel)
    simp only [operands, bind_iff, pure_iff, pChars_iff] at h
    obtain ⟨t, _, ⟨w, rfl, hw⟩, rfl, rfl⟩ := h
    exact ⟨[w], _, rfl, .chars "noletsignafter" _ w t (by simp [charsOpcodes]) hw ((accepts_none _).mp hc)⟩
  case numericnocontchars =>
    obtain rfl : s = "numericnocontchars" := (wordOf_eq hs).trans (by decide +kernel)
    simp only [operands, bind_iff, pure_iff, pChars_iff] at h
    obtain ⟨t, _, ⟨w, rfl, hw⟩, rfl, rfl⟩ := h
    exact ⟨[w], _, rfl, .chars "numericnocontchars" _ w t (by simp [charsOpcodes]) hw ((accepts_none _).mp hc)⟩
  case numericmodechars =>
    obtain rfl : s = "numericmodechars" := (wordOf_eq hs).trans (by decide +kernel)
    simp only [operands, bind_iff, pure_iff, pChars_iff] at h
    obtain ⟨t, _, ⟨w, rfl, hw⟩, rfl, rfl⟩ := h
    exact ⟨[w], _, rfl, .chars "numericmodechars" _ w t (by simp [charsOpcodes]) hw ((accepts_none _).mp hc)⟩
  case seqdelimiter =>
    obtain rfl : s = "seqdelimiter" := (wordOf_eq hs).trans (by decide +kernel)
    simp only [operands, bind_iff, pure_iff, pChars_iff] at h
    obtain ⟨t, _, ⟨w, rfl, hw⟩, rfl, rfl⟩ := h
    exact ⟨[w], _, rfl, .chars "seqdelimiter" _ w t (by simp [charsOpcodes]) hw ((accepts_none _).mp hc)⟩
  case seqbeforechars =>
    obtain rfl : s = "seqbeforechars" := (wordOf_eq hs).trans (by decide +kernel)
    simp only [operands, bind_iff, pure_iff, pChars_iff] at h
    obtain ⟨t, _, ⟨w, rfl, hw⟩, rfl, rfl⟩ := h
    exact ⟨[w], _, rfl, .chars "seqbeforechars" _ w t (by simp [charsOpcodes]) hw ((accepts_none _).mp hc)⟩
  case seqafterchars =>
    obtain rfl : s = "seqafterchars" := (wordOf_eq hs).trans (by decide +kernel)
    simp only [operands, bind_iff, pure_iff, pChars_iff] at h
    obtain ⟨t, _, ⟨w, rfl, hw⟩, rfl, rfl⟩ := h
    exact ⟨[w], _, rfl, .chars "seqafterchars" _ w t (by simp [charsOpcodes]) hw ((accepts_none _).mp hc)⟩
  case contraction =>
    obtain rfl : s = "contraction" := (wordOf_eq hs).trans (by decide +kernel)
    simp only [operands, bind_iff, pure_iff, pChars_iff] at h
    obtain ⟨t, _, ⟨w, rfl, hw⟩, rfl, rfl⟩ := h
    exact ⟨[w], _, rfl, .chars "contraction" _ w t (by simp [charsOpcodes]) hw ((accepts_none _).mp hc)⟩
  case midendnumericmodechars =>
    obtain rfl : s = "midendnumericmodechars" := (wordOf_eq hs).trans (by decide +kernel)
    simp only [operands, bind_iff, pure_iff, pChars_iff] at h
    obtain ⟨t, _, ⟨w, rfl, hw⟩, rfl, rfl⟩ := h
    exact ⟨[w], _, rfl, .chars "midendnumericmodechars" (fun _ => .other .none) w t (by simp [charsOpcodes]) hw ((accepts_none _).mp hc)⟩
  case seqafterpattern =>
    obtain rfl : s = "seqafterpattern" := (wordOf_eq hs).trans (by decide +kernel)
    simp only [operands, bind_iff, pure_iff, pChars_iff] at h
    obtain ⟨t, _, ⟨w, rfl, hw⟩, rfl, rfl⟩ := h
    exact ⟨[w], _, rfl, .chars "seqafterpattern" (fun _ => .other .none) w t (by simp [charsOpcodes]) hw ((accepts_none _).mp hc)⟩
  case seqafterexpression =>
    obtain rfl : s = "seqafterexpression" := (wordOf_eq hs).trans (by decide +kernel)
    simp only [operands, bind_iff, pure_iff, pChars_iff] at h
    obtain ⟨t, _, ⟨w, rfl, hw⟩, rfl, rfl⟩ := h
    exact ⟨[w], _, rfl, .chars "seqafterexpression" (fun _ => .other .none) w t (by simp [charsOpcodes]) hw ((accepts_none _).mp hc)⟩
  case nocont =>
    obtain rfl : s = "nocont" := (wordOf_eq hs).trans (by decide +kernel)
    simp only [operands, bind_iff, pure_iff, pChars_iff] at h
    obtain ⟨t, _, ⟨w, rfl, hw⟩, rfl, rfl⟩ := h
    exact ⟨[w], _, rfl, .chars "nocont" (fun _ => .other .none) w t (by simp [charsOpcodes]) hw ((accepts_none _).mp hc)⟩
  case exactdots =>
    obtain rfl : s = "exactdots" := (wordOf_eq hs).trans (by decide +kernel)
    simp only [operands, bind_iff, pure_iff, pChars_iff] at h
    obtain ⟨t, _, ⟨w, rfl, hw⟩, rfl, rfl⟩ := h
    exact ⟨[w], _, rfl, .chars "exactdots" (fun _ => .other .none) w t (by simp [charsOpcodes]) hw ((accepts_none _).mp hc)⟩
  case literal =>
    obtain rfl : s = "literal" := (wordOf_eq hs).trans (by decide +kernel)
    simp only [operands, bind_iff, pure_iff, pChars_iff] at h
    obtain ⟨t, _, ⟨w, rfl, hw⟩, rfl, rfl⟩ := h
    exact ⟨[w], _, rfl, .chars "literal" (fun _ => .other .none) w t (by simp [charsOpcodes]) hw ((accepts_none _).mp hc)⟩
  case replace =>
    obtain rfl : s = "replace" := (wordOf_eq hs).trans (by decide +kernel)
    simp only [operands, bind_iff, pure_iff, pChars_iff] at h
    obtain ⟨t, _, ⟨w, rfl, hw⟩, _, _, _, rfl, rfl⟩ := h
    exact ⟨[w], _, rfl, .chars "replace" (fun _ => .other .none) w t (by simp [charsOpcodes]) hw ((accepts_none _).mp hc)⟩
  case compbrl =>
    obtain rfl : s = "compbrl" := (wordOf_eq hs).trans (by decide +kernel)
    simp only [operands, bind_iff, pure_iff, pChars_iff] at h
    obtain ⟨t, _, ⟨w, rfl, hw⟩, rfl, rfl⟩ := h
    exact ⟨[w], _, rfl, .compbrl w t hw ((accepts_direction _).mp hc)⟩
  case cls =>
    obtain rfl : s = "class" := (wordOf_eq hs).trans (by decide +kernel)
    simp only [operands, bind_iff, pure_iff, pName_iff, pChars_iff] at h
    obtain ⟨n, _, ⟨rfl, hn⟩, t, _, ⟨w, rfl, hw⟩, rfl, rfl⟩ := h
    exact ⟨[n, w], _, rfl, .nameChars "class" _ n w t (by simp [nameCharsOpcodes]) hn hw ((accepts_none _).mp hc)⟩
  case «attribute» =>
    obtain rfl : s = "attribute" := (wordOf_eq hs).trans (by decide +kernel)
    simp only [operands, bind_iff, pure_iff, pName_iff, pChars_iff] at h
    obtain ⟨n, _, ⟨rfl, hn⟩, t, _, ⟨w, rfl, hw⟩, rfl, rfl⟩ := h
    exact ⟨[n, w], _, rfl, .nameChars "attribute" _ n w t (by simp [nameCharsOpcodes]) hn hw ((accepts_none _).mp hc)⟩
  case noemphchars =>
    obtain rfl : s = "noemphchars" := (wordOf_eq hs).trans (by decide +kernel)
    simp only [operands, bind_iff, pure_iff, pName_iff, pChars_iff] at h
    obtain ⟨n, _, ⟨rfl, hn⟩, t, _, ⟨w, rfl, hw⟩, rfl, rfl⟩ := h
    exact ⟨[n, w], _, rfl, .nameChars "noemphchars" _ n w t (by simp [nameCharsOpcodes]) hn hw ((accepts_none _).mp hc)⟩
  case emphmodechars =>
    obtain rfl : s = "emphmodechars" := (wordOf_eq hs).trans (by decide +kernel)
    simp only [operands, bind_iff, pure_iff, pName_iff, pChars_iff] at h
    obtain ⟨n, _, ⟨rfl, hn⟩, t, _, ⟨w, rfl, hw⟩, rfl, rfl⟩ := h
    exact ⟨[n, w], _, rfl, .nameChars "emphmodechars" _ n w t (by simp [nameCharsOpcodes]) hn hw ((accepts_none _).mp hc)⟩
  case emphletter =>
    obtain rfl : s = "emphletter" := (wordOf_eq hs).trans (by decide +kernel)
    simp only [operands, bind_iff, pure_iff, pName_iff, pExplicitDots_iff] at h
    obtain ⟨n, _, ⟨rfl, hn⟩, cells, _, ⟨w, rfl, hw⟩, rfl, rfl⟩ := h
    exact ⟨[n, w], _, rfl, .nameDots "emphletter" _ n w cells (by simp [nameDotsOpcodes]) hn hw ((accepts_none _).mp hc)⟩
  case begemphword =>
    obtain rfl : s = "begemphword" := (wordOf_eq hs).trans (by decide +kernel)
    simp only [operands, bind_iff, pure_iff, pName_iff, pExplicitDots_iff] at h
    obtain ⟨n, _, ⟨rfl, hn⟩, cells, _, ⟨w, rfl, hw⟩, rfl, rfl⟩ := h
    exact ⟨[n, w], _, rfl, .nameDots "begemphword" _ n w cells (by simp [nameDotsOpcodes]) hn hw ((accepts_none _).mp hc)⟩
  case endemphword =>
    obtain rfl : s = "endemphword" := (wordOf_eq hs).trans (by decide +kernel)
    simp only [operands, bind_iff, pure_iff, pName_iff, pExplicitDots_iff] at h
    obtain ⟨n, _, ⟨rfl, hn⟩, cells, _, ⟨w, rfl, hw⟩, rfl, rfl⟩ := h
    exact ⟨[n, w], _, rfl, .nameDots "endemphword" _ n w cells (by simp [nameDotsOpcodes]) hn hw ((accepts_none _).mp hc)⟩
  case begemphphrase =>
    obtain rfl : s = "begemphphrase" := (wordOf_eq hs).trans (by decide +kernel)
    simp only [operands, bind_iff, pure_iff, pName_iff, pExplicitDots_iff] at h
    obtain ⟨n, _, ⟨rfl, hn⟩, cells, _, ⟨w, rfl, hw⟩, rfl, rfl⟩ := h
    exact ⟨[n, w], _, rfl, .nameDots "begemphphrase" _ n w cells (by simp [nameDotsOpcodes]) hn hw ((accepts_none _).mp hc)⟩
  case begmodephrase =>
    obtain rfl : s = "begmodephrase" := (wordOf_eq hs).trans (by decide +kernel)
    simp only [operands, bind_iff, pure_iff, pName_iff, pExplicitDots_iff] at h
    obtain ⟨n, _, ⟨rfl, hn⟩, cells, _, ⟨w, rfl, hw⟩, rfl, rfl⟩ := h
    exact ⟨[n, w], _, rfl, .nameDots "begmodephrase" (fun _ _ => .other .none) n w cells (by simp [nameDotsOpcodes]) hn hw ((accepts_none _).mp hc)⟩
  case begemph =>
    obtain rfl : s = "begemph" := (wordOf_eq hs).trans (by decide +kernel)
    simp only [operands, bind_iff, pure_iff, pName_iff, pExplicitDots_iff] at h
    obtain ⟨n, _, ⟨rfl, hn⟩, cells, _, ⟨w, rfl, hw⟩, rfl, rfl⟩ := h
    exact ⟨[n, w], _, rfl, .nameDotsDir "begemph" _ n w cells (by simp [nameDotsDirOpcodes]) hn hw ((accepts_direction _).mp hc)⟩
  case endemph =>
    obtain rfl : s = "endemph" := (wordOf_eq hs).trans (by decide +kernel)
    simp only [operands, bind_iff, pure_iff, pName_iff, pExplicitDots_iff] at h
    obtain ⟨n, _, ⟨rfl, hn⟩, cells, _, ⟨w, rfl, hw⟩, rfl, rfl⟩ := h
    exact ⟨[n, w], _, rfl, .nameDotsDir "endemph" _ n w cells (by simp [nameDotsDirOpcodes]) hn hw ((accepts_direction _).mp hc)⟩
  case modeletter =>
    obtain rfl : s = "modeletter" := (wordOf_eq hs).trans (by decide +kernel)
    simp only [operands, bind_iff, pure_iff, pName_iff, pExplicitDots_iff] at h
    obtain ⟨n, _, ⟨rfl, hn⟩, cells, _, ⟨w, rfl, hw⟩, rfl, rfl⟩ := h
    exact ⟨[n, w], _, rfl, .nameDotsDir "modeletter" (fun _ _ c => .other c) n w cells (by simp [nameDotsDirOpcodes]) hn hw ((accepts_direction _).mp hc)⟩
  case begmodeword =>
    obtain rfl : s = "begmodeword" := (wordOf_eq hs).trans (by decide +kernel)
    simp only [operands, bind_iff, pure_iff, pName_iff, pExplicitDots_iff] at h
    obtain ⟨n, _, ⟨rfl, hn⟩, cells, _, ⟨w, rfl, hw⟩, rfl, rfl⟩ := h
    exact ⟨[n, w], _, rfl, .nameDotsDir "begmodeword" (fun _ _ c => .other c) n w cells (by simp [nameDotsDirOpcodes]) hn hw ((accepts_direction _).mp hc)⟩
  case largesign =>
    obtain rfl : s = "largesign" := (wordOf_eq hs).trans (by decide +kernel)
    simp only [operands, bind_iff, pure_iff, pChars_iff, pExplicitDots_iff] at h
    obtain ⟨t, _, ⟨v, rfl, hv⟩, cells, _, ⟨w, rfl, hw⟩, rfl, rfl⟩ := h
    exact ⟨[v, w], _, rfl, .charsDots "largesign" _ v w t cells (by simp [charsDotsOpcodes]) hv hw ((accepts_none _).mp hc)⟩
  case joinword =>
    obtain rfl : s = "joinword" := (wordOf_eq hs).trans (by decide +kernel)
    simp only [operands, bind_iff, pure_iff, pChars_iff, pExplicitDots_iff] at h
    obtain ⟨t, _, ⟨v, rfl, hv⟩, cells, _, ⟨w, rfl, hw⟩, rfl, rfl⟩ := h
    exact ⟨[v, w], _, rfl, .charsDots "joinword" _ v w t cells (by simp [charsDotsOpcodes]) hv hw ((accepts_none _).mp hc)⟩
  case repword =>
    obtain rfl : s = "repword" := (wordOf_eq hs).trans (by decide +kernel)
    simp only [operands, bind_iff, pure_iff, pChars_iff, pExplicitDots_iff] at h
    obtain ⟨t, _, ⟨v, rfl, hv⟩, cells, _, ⟨w, rfl, hw⟩, rfl, rfl⟩ := h
    exact ⟨[v, w], _, rfl, .charsDots "repword" (fun _ _ => .other .none) v w t cells (by simp [charsDotsOpcodes]) hv hw ((accepts_none _).mp hc)⟩
  case lowword =>
    obtain rfl : s = "lowword" := (wordOf_eq hs).trans (by decide +kernel)
    simp only [operands, bind_iff, pure_iff, pChars_iff, pExplicitDots_iff] at h
    obtain ⟨t, _, ⟨v, rfl, hv⟩, cells, _, ⟨w, rfl, hw⟩, rfl, rfl⟩ := h
    exact ⟨[v, w], _, rfl, .charsDotsDir "lowword" _ v w t cells (by simp [charsDotsDirOpcodes]) hv hw ((accepts_direction _).mp hc)⟩
  case repeated =>
    obtain rfl : s = "repeated" := (wordOf_eq hs).trans (by decide +kernel)
    simp only [operands, bind_iff, pure_iff, pChars_iff, pExplicitDots_iff] at h
    obtain ⟨t, _, ⟨v, rfl, hv⟩, cells, _, ⟨w, rfl, hw⟩, rfl, rfl⟩ := h
    exact ⟨[v, w], _, rfl, .charsDotsDir "repeated" (fun _ _ c => .other c) v w t cells (by simp [charsDotsDirOpcodes]) hv hw ((accepts_direction _).mp hc)⟩
  case prepunc =>
    obtain rfl : s = "prepunc" := (wordOf_eq hs).trans (by decide +kernel)
    simp only [operands, bind_iff, pure_iff, pChars_iff, pExplicitDots_iff] at h
    obtain ⟨t, _, ⟨v, rfl, hv⟩, cells, _, ⟨w, rfl, hw⟩, rfl, rfl⟩ := h
    exact ⟨[v, w], _, rfl, .charsDotsAny "prepunc" _ v w t cells (by simp [charsDotsAnyOpcodes]) hv hw ⟩
  case postpunc =>
    obtain rfl : s = "postpunc" := (wordOf_eq hs).trans (by decide +kernel)
    simp only [operands, bind_iff, pure_iff, pChars_iff, pExplicitDots_iff] at h
    obtain ⟨t, _, ⟨v, rfl, hv⟩, cells, _, ⟨w, rfl, hw⟩, rfl, rfl⟩ := h
    exact ⟨[v, w], _, rfl, .charsDotsAny "postpunc" _ v w t cells (by simp [charsDotsAnyOpcodes]) hv hw ⟩
  case begnum =>
    obtain rfl : s = "begnum" := (wordOf_eq hs).trans (by decide +kernel)
    simp only [operands, bind_iff, pure_iff, pChars_iff, pExplicitDots_iff] at h
    obtain ⟨t, _, ⟨v, rfl, hv⟩, cells, _, ⟨w, rfl, hw⟩, rfl, rfl⟩ := h
    exact ⟨[v, w], _, rfl, .charsDotsAny "begnum" _ v w t cells (by simp [charsDotsAnyOpcodes]) hv hw ⟩
  case midnum =>
    obtain rfl : s = "midnum" := (wordOf_eq hs).trans (by decide +kernel)
    simp only [operands, bind_iff, pure_iff, pChars_iff, pExplicitDots_iff] at h
    obtain ⟨t, _, ⟨v, rfl, hv⟩, cells, _, ⟨w, rfl, hw⟩, rfl, rfl⟩ := h
    exact ⟨[v, w], _, rfl, .charsDotsAny "midnum" _ v w t cells (by simp [charsDotsAnyOpcodes]) hv hw ⟩
  case joinnum =>
    obtain rfl : s = "joinnum" := (wordOf_eq hs).trans (by decide +kernel)
    simp only [operands, bind_iff, pure_iff, pChars_iff, pExplicitDots_iff] at h
    obtain ⟨t, _, ⟨v, rfl, hv⟩, cells, _, ⟨w, rfl, hw⟩, rfl, rfl⟩ := h
    exact ⟨[v, w], _, rfl, .charsDotsAny "joinnum" (fun _ _ c => .other c) v w t cells (by simp [charsDotsAnyOpcodes]) hv hw ⟩
  case comp6 =>
    obtain rfl : s = "comp6" := (wordOf_eq hs).trans (by decide +kernel)
    simp only [operands, bind_iff, pure_iff, pChars_iff, pDots_iff] at h
    obtain ⟨t, _, ⟨v, rfl, hv⟩, b, _, ⟨w, rfl, hw⟩, rfl, rfl⟩ := h
    exact ⟨[v, w], _, rfl, .charsBraille "comp6" _ v w t b (by simp [charsBrailleOpcodes]) hv hw ((accepts_none _).mp hc)⟩
  case syllable =>
    obtain rfl : s = "syllable" := (wordOf_eq hs).trans (by decide +kernel)
    simp only [operands, bind_iff, pure_iff, pChars_iff, pDots_iff] at h
    obtain ⟨t, _, ⟨v, rfl, hv⟩, b, _, ⟨w, rfl, hw⟩, rfl, rfl⟩ := h
    exact ⟨[v, w], _, rfl, .charsBraille "syllable" _ v w t b (by simp [charsBrailleOpcodes]) hv hw ((accepts_none _).mp hc)⟩
  case endnum =>
    obtain rfl : s = "endnum" := (wordOf_eq hs).trans (by decide +kernel)
    simp only [operands, bind_iff, pure_iff, pChars_iff, pDots_iff] at h
    obtain ⟨t, _, ⟨v, rfl, hv⟩, b, _, ⟨w, rfl, hw⟩, rfl, rfl⟩ := h
    exact ⟨[v, w], _, rfl, .endnum v w t b hv hw⟩
  case display =>
    obtain rfl : s = "display" := (wordOf_eq hs).trans (by decide +kernel)
    simp only [operands, bind_iff, pure_iff, pOneChar_iff, pCell_iff] at h
    obtain ⟨c, _, ⟨v, rfl, hv⟩, cell, _, ⟨w, rfl, hw⟩, rfl, rfl⟩ := h
    exact ⟨[v, w], _, rfl, .display v w c cell hv hw ((accepts_direction _).mp hc)⟩
  case decpoint =>
    obtain rfl : s = "decpoint" := (wordOf_eq hs).trans (by decide +kernel)
    simp only [operands, bind_iff, pure_iff, pOneChar_iff, pExplicitDots_iff] at h
    obtain ⟨c, _, ⟨v, rfl, hv⟩, cells, _, ⟨w, rfl, hw⟩, rfl, rfl⟩ := h
    exact ⟨[v, w], _, rfl, .decpoint v w c cells hv hw ((accepts_none _).mp hc)⟩
  case base =>
    obtain rfl : s = "base" := (wordOf_eq hs).trans (by decide +kernel)
    simp only [operands, bind_iff, pure_iff, pName_iff, pOneChar_iff] at h
    obtain ⟨n, _, ⟨rfl, hn⟩, c, _, ⟨v, rfl, hv⟩, d, _, ⟨w, rfl, hw⟩, rfl, rfl⟩ := h
    exact ⟨[n, v, w], _, rfl, .base n v w c d hn hv hw ((accepts_none _).mp hc)⟩
  case emphclass =>
    obtain rfl : s = "emphclass" := (wordOf_eq hs).trans (by decide +kernel)
    simp only [operands, bind_iff, pure_iff, pName_iff] at h
    obtain ⟨n, _, ⟨rfl, hn⟩, rfl, rfl⟩ := h
    exact ⟨[n], _, rfl, .emphclass n hn ((accepts_none _).mp hc)⟩
  case incl =>
    obtain rfl : s = "include" := (wordOf_eq hs).trans (by decide +kernel)
    simp only [operands, bind_iff, pure_iff, next_iff] at h
    obtain ⟨n, _, rfl, rfl, rfl⟩ := h
    exact ⟨[n], _, rfl, .incl n ((accepts_none _).mp hc)⟩
  case endcapsphrase =>
    obtain rfl : s = "endcapsphrase" := (wordOf_eq hs).trans (by decide +kernel)
    simp only [operands, bind_iff, pure_iff, pPosition_iff, pExplicitDots_iff] at h
    obtain ⟨b, _, ⟨v, rfl, hv⟩, cells, _, ⟨w, rfl, hw⟩, rfl, rfl⟩ := h
    exact ⟨[v, w], _, rfl, .endcapsphrase v w b cells hv hw ((accepts_none _).mp hc)⟩
  case endemphphrase =>
    obtain rfl : s = "endemphphrase" := (wordOf_eq hs).trans (by decide +kernel)
    simp only [operands, bind_iff, pure_iff, pName_iff, pPosition_iff, pExplicitDots_iff] at h
    obtain ⟨n, _, ⟨rfl, hn⟩, b, _, ⟨v, rfl, hv⟩, cells, _, ⟨w, rfl, hw⟩, rfl, rfl⟩ := h
    exact ⟨[n, v, w], _, rfl, .endemphphrase n v w b cells hn hv hw ((accepts_none _).mp hc)⟩
  case endmodephrase =>
    obtain rfl : s = "endmodephrase" := (wordOf_eq hs).trans (by decide +kernel)
    simp only [operands, bind_iff, pure_iff, pName_iff, pPosition_iff, pExplicitDots_iff] at h
    obtain ⟨n, _, ⟨rfl, hn⟩, b, _, ⟨v, rfl, hv⟩, cells, _, ⟨w, rfl, hw⟩, rfl, rfl⟩ := h
    exact ⟨[n, v, w], _, rfl, .endmodephrase n v w b cells hn hv hw ((accepts_none _).mp hc)⟩
  case lencapsphrase =>
    obtain rfl : s = "lencapsphrase" := (wordOf_eq hs).trans (by decide +kernel)
    simp only [operands, bind_iff, pure_iff, pNumber_iff] at h
    obtain ⟨i, _, ⟨w, rfl, hw⟩, rfl, rfl⟩ := h
    exact ⟨[w], _, rfl, .lencapsphrase w i hw ((accepts_none _).mp hc)⟩
  case lenemphphrase =>
    obtain rfl : s = "lenemphphrase" := (wordOf_eq hs).trans (by decide +kernel)
    simp only [operands, bind_iff, pure_iff, pName_iff, pNumber_iff] at h
    obtain ⟨n, _, ⟨rfl, hn⟩, i, _, ⟨w, rfl, hw⟩, rfl, rfl⟩ := h
    exact ⟨[n, w], _, rfl, .lenemphphrase n w i hn hw ((accepts_none _).mp hc)⟩
  case lenmodephrase =>
    obtain rfl : s = "lenmodephrase" := (wordOf_eq hs).trans (by decide +kernel)
    simp only [operands, bind_iff, pure_iff, pName_iff, pNumber_iff] at h
    obtain ⟨n, _, ⟨rfl, hn⟩, i, _, ⟨w, rfl, hw⟩, rfl, rfl⟩ := h
    exact ⟨[n, w], _, rfl, .lenmodephrase n w i hn hw ((accepts_none _).mp hc)⟩
  case swapcd =>
    obtain rfl : s = "swapcd" := (wordOf_eq hs).trans (by decide +kernel)
    simp only [operands, bind_iff, pure_iff, pName_iff, pChars_iff, pManyCells_iff, require_iff] at h
    obtain ⟨n, _, ⟨rfl, hn⟩, t, _, ⟨v, rfl, hv⟩, cs, _, ⟨w, rfl, hw⟩, _, _, ⟨hl, rfl⟩, rfl, rfl⟩ := h
    exact ⟨[n, v, w], _, rfl, .swapcd n v w t cs hn hv hw (by simpa using hl) ((accepts_none _).mp hc)⟩
  case swapdd =>
    obtain rfl : s = "swapdd" := (wordOf_eq hs).trans (by decide +kernel)
    simp only [operands, bind_iff, pure_iff, pName_iff, pManyCell_iff, pManyCells_iff, require_iff] at h
    obtain ⟨n, _, ⟨rfl, hn⟩, t, _, ⟨v, rfl, hv⟩, cs, _, ⟨w, rfl, hw⟩, _, _, ⟨hl, rfl⟩, rfl, rfl⟩ := h
    exact ⟨[n, v, w], _, rfl, .swapdd n v w t cs hn hv hw (by simpa using hl) ((accepts_none _).mp hc)⟩
  case swapcc =>
    obtain rfl : s = "swapcc" := (wordOf_eq hs).trans (by decide +kernel)
    simp only [operands, bind_iff, pure_iff, pName_iff, pChars_iff, require_iff] at h
    obtain ⟨n, _, ⟨rfl, hn⟩, t, _, ⟨v, rfl, hv⟩, cs, _, ⟨w, rfl, hw⟩, _, _, ⟨hl, rfl⟩, rfl, rfl⟩ := h
    exact ⟨[n, v, w], _, rfl, .swapcc n v w t cs hn hv hw (by simpa using hl) ((accepts_none _).mp hc)⟩
  case matchRule =>
    obtain rfl : s = "match" := (wordOf_eq hs).trans (by decide +kernel)
    simp only [operands, bind_iff, pure_iff, pMatch_iff, pChars_iff, pDots_iff] at h
    obtain ⟨pre, _, ⟨u, rfl, hu⟩, t, _, ⟨v, rfl, hv⟩, post, _, ⟨w, rfl, hw⟩, b, _, ⟨x, rfl, hx⟩, rfl, rfl⟩ := h
    exact ⟨[u, v, w, x], _, rfl, .matchRule u v w x t pre post b hu hv hw hx ((accepts_direction _).mp hc)⟩
  case multind =>
    obtain rfl : s = "multind" := (wordOf_eq hs).trans (by decide +kernel)
    simp only [operands, bind_iff, pure_iff, pExplicitDots_iff, pManyNames_iff] at h
    obtain ⟨cells, _, ⟨w, rfl, hw⟩, _, _, ⟨rfl, a, b, more, rfl⟩, rfl, rfl⟩ := h
    exact ⟨[w, a, b], more, rfl, .multind w a b cells hw ((accepts_direction _).mp hc)⟩
  case grouping =>
    obtain rfl : s = "grouping" := (wordOf_eq hs).trans (by decide +kernel)
    simp only [operands, bind_iff, pure_iff, pName_iff, pChars_iff, pManyCell_iff, require_iff] at h
    obtain ⟨n, _, ⟨rfl, hn⟩, t, _, ⟨v, rfl, hv⟩, cs, _, ⟨w, rfl, hw⟩, _, _, ⟨hl, rfl⟩, rfl, rfl⟩ := h
    obtain ⟨a, b, rfl⟩ := length_two (by simpa using hl)
    exact ⟨[n, v, w], _, rfl, .grouping n v w t a b hn hv hw ((accepts_direction _).mp hc)⟩
  case rependword =>
    obtain rfl : s = "rependword" := (wordOf_eq hs).trans (by decide +kernel)
    simp only [operands, bind_iff, pure_iff, pChars_iff, pManyCells_iff, require_iff] at h
    obtain ⟨t, _, ⟨v, rfl, hv⟩, cs, _, ⟨w, rfl, hw⟩, _, _, ⟨hl, rfl⟩, rfl, rfl⟩ := h
    obtain ⟨a, b, rfl⟩ := length_two (by simpa using hl)
    exact ⟨[v, w], _, rfl, .rependword v w t a b hv hw ((accepts_none _).mp hc)⟩
  case capsnocont =>
    obtain rfl : s = "capsnocont" := (wordOf_eq hs).trans (by decide +kernel)
    simp only [operands, pure_iff] at h
    obtain ⟨rfl, rfl⟩ := h
    exact ⟨[], _, rfl, .capsnocont ((accepts_none _).mp hc)⟩

end Louis
