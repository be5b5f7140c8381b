import Verif.Props.CapitalSigns
import Verif.Props.EmphasisRuns
import Verif.Props.Config
import Verif.Props.SpansText
import Verif.Props.Gates
import Verif.Props.Demo
import Verif.Props.BackwardTrace
import Verif.Lemmas.DecEq

/-!
# C68: the signs a translation writes, from the lines of the table
-/

namespace Louis

open Regexp (Fault)

/-! ## Specification -/

/-- The signs of a list that stand at position `pos`, in their order. -/
def atPos (pos : Nat) (l : List (Nat × Resolved)) : List Resolved := (l.filter fun q => q.1 == pos).map (·.2)

/-- The computer-braille spans to observe: the given ones, and the words that contain a `compbrl` trigger. -/
def AllSpans (ctx : TableCtx) (rules : List Anchored) (text : Text) (spans all : List Span) : Prop :=
  ∃ extra, all = spans ++ extra ∧ extra.Nodup ∧ ∀ s, s ∈ extra ↔ s ∉ spans ∧ s.cls = computerBraille ∧
    ∃ r ∈ rules, ∃ trigger cons, r.rule = .compbrl trigger cons ∧ ∃ q, OccursAt trigger text q ∧
      WordAt ctx.classes.isWhitespace text q s.start s.stop

/-- The signs of a computer-braille span of a text of length `n`. -/
def spanSigns (b : Resolved) (e : Option Resolved) (n : Nat) (s : Span) : List (Nat × Resolved) :=
  if s.cls = computerBraille ∧ s.start < min s.stop n then (s.start, b) :: signAt (min s.stop n) e else []

/-- The settings for the letter sign (the dictionary of contractions is not one of them). -/
def letConfig (classes : CharClasses) (rules : List Anchored) (dots : Text) (origin : Origin) : LetIndicator where
  contractions := .empty
  start := indication dots origin
  letters := signLetters classes
  spaces := classes.members .space
  noletsign := allChars (fun | .noletsign cs => some cs | _ => none) rules
  after := allChars (fun | .noletsignafter cs => some cs | _ => none) rules
  before := allChars (fun | .noletsignbefore cs => some cs | _ => none) rules

/-- The signs a table demands of a text, kind by kind, each sign with its position. -/
structure TableSigns (ctx : TableCtx) (lower : Char → List Char) (rules : List Anchored) (text : Text) (all : List Span)
    (comp emph num letters caps noc : List (Nat × Resolved)) : Prop where
  /-- computer braille: the signs of all spans; at one position in the order of the spans -/
  comp : match lastSign (fun | .begcomp dots _ => some dots | _ => none) rules with
    | none => comp = []
    | some b => ∀ pos, atPos pos comp =
        atPos pos (all.flatMap (spanSigns b (lastSign (fun | .endcomp dots _ => some dots | _ => none) rules) text.length))
  /-- emphasis: the signs of all classes that have an opening sign -/
  emph : ∃ g : EmphClass → List (Nat × Resolved),
    let classes := ((emphNames rules).map fun n => emphConfig ctx.classes n rules).filter fun c =>
      c.emphletter.isSome || c.begemphword.isSome || c.begemph.isSome || c.begemphphrase.isSome
    (∀ x ∈ classes, ClassSigns x text all (g x)) ∧ emph.Perm (classes.flatMap g)
  /-- numbers: the number sign at a digit that does not continue a number, the other sign at a character after a number that
  could be mistaken for a digit -/
  num : match lastSign (fun | .numsign dots => some dots | _ => none) rules with
    | none => num = []
    | some sign => num.Pairwise (fun a b => a.1 < b.1) ∧ ∀ p t, (p, t) ∈ num ↔ p < text.length ∧
        let x := numConfig ctx.classes rules
        ((t = sign ∧ DigitAt x.chars text p ∧ ¬ AfterNumber x.chars text p) ∨
          (x.stop = some t ∧ AfterNumber x.chars text p ∧ ¬ InNumber x.chars text p ∧ ∃ c, text[p]? = some c ∧ c ∈ x.terminating))
  /-- the letter sign: at isolated letters and at words that look like contractions -/
  letters : match lastDots (fun | .letsign dots => some dots | _ => none) rules with
    | none => letters = []
    | some (dots, origin) => letters.Pairwise (fun a b => a.1 < b.1) ∧ ∀ p t, (p, t) ∈ letters ↔ t = indication dots origin ∧
        let l := letConfig ctx.classes rules dots origin
        (∃ c, text[p]? = some c ∧ c ∉ l.noletsign) ∧
          (IsolatedLetter l text p ∨ ∃ w ∈ contractionsOf rules, WordHere ctx.classes lower w text p)
  /-- capitals -/
  caps : let x := capsConfig ctx.classes rules
    if x.capsletter = none ∧ x.begcapsword = none ∧ x.begcaps = none ∧ x.begcapsphrase = none then caps = []
    else ∀ ws, AreWords x text ws → CapSigns x text ws caps
  /-- the no-contraction sign: at words that look like contractions -/
  noc : match lastDots (fun | .nocontractsign dots _ => some dots | _ => none) rules with
    | none => noc = []
    | some (dots, origin) => noc.Pairwise (fun a b => a.1 < b.1) ∧ ∀ p t, (p, t) ∈ noc ↔ t = indication dots origin ∧
        p < text.length ∧ ∃ w ∈ contractionsOf rules, WordHere ctx.classes lower w text p

/-! ## Proofs -/

theorem atPos_append (pos : Nat) (a b : List (Nat × Resolved)) : atPos pos (a ++ b) = atPos pos a ++ atPos pos b := by
  simp [atPos]

/-- Sorting by position keeps the order at each position. -/
theorem insertBack_filter {α : Type} {less : α → α → Bool} {key : α → Nat} (hl : ∀ a b, less a b = true → key a < key b) (p : Nat) (x : α) :
    ∀ l : List α, (insertBack less x l).filter (fun a => key a == p) = (if key x = p then [x] else []) ++ l.filter (fun a => key a == p) := by
  intro l
  induction l with
  | nil => by_cases h : key x = p <;> simp [insertBack, h]
  | cons y l ih =>
    rw [insertBack]
    split
    · next hlt =>
      rw [List.filter_cons, ih]
      have := hl _ _ hlt
      by_cases h : key x = p
      · have : ¬ key y = p := by omega
        simp [h, this]
      · simp only [h, if_false, List.nil_append]
        rw [List.filter_cons]
    · by_cases h : key x = p <;> simp [List.filter_cons, h]

theorem stableSort_filter {α : Type} {less : α → α → Bool} {key : α → Nat} (hl : ∀ a b, less a b = true → key a < key b) (p : Nat)
    (l : List α) : (stableSort less l).filter (fun a => key a == p) = l.filter (fun a => key a == p) := by
  have key' : ∀ (l acc : List α), (l.foldl (fun acc x => insertBack less x acc) acc).filter (fun a => key a == p) =
      (l.filter (fun a => key a == p)).reverse ++ acc.filter (fun a => key a == p) := by
    intro l
    induction l with
    | nil => intro acc; rfl
    | cons x l ih =>
      intro acc
      rw [List.foldl_cons, ih, insertBack_filter hl]
      by_cases h : key x = p <;> simp [List.filter_cons, h]
  unfold stableSort
  rw [List.filter_reverse, key']
  simp

theorem atPos_sortByPos (pos : Nat) (l : List (Nat × Resolved)) : atPos pos (sortByPos l) = atPos pos l := by
  unfold atPos sortByPos
  rw [stableSort_filter (key := fun a : Nat × Resolved => a.1)]
  intro a b h
  simpa using h

theorem spanSigns_model (i : CompIndicator) (text : Text) (spans : List Span) (pos : Nat) :
    atPos pos (i.precompute text spans) = atPos pos (spans.flatMap (spanSigns i.begcomp i.endcomp text.length)) := by
  unfold CompIndicator.precompute
  rw [atPos_sortByPos]
  congr 2
  funext s
  unfold spanSigns
  simp only [signAt_toList]
  by_cases h1 : s.cls = computerBraille
  · by_cases h2 : s.start < min s.stop text.length
    · have h3 : ¬ s.start ≥ min s.stop text.length := by omega
      rw [if_neg (by simp [h1]), if_neg h3, if_pos ⟨h1, h2⟩]
    · have h3 : s.start ≥ min s.stop text.length := by omega
      rw [if_neg (by simp [h1]), if_pos h3, if_neg (fun h => h2 h.2)]
  · rw [if_pos h1, if_neg (fun h => h1 h.1)]

theorem allSpans {sys : Sys} {ctx : TableCtx} {d : Direction} {rules : List Anchored} {p : Primary}
    (h : MainStage sys ctx d rules p) {text : Text} {spans e : List Span}
    (he : if p.triggers.isEmpty then e = spans else Enriches p.triggers p.classes.isWhitespace text spans e) :
    AllSpans ctx rules text spans e := by
  rw [h.triggers, h.classes] at he
  have htr : ∀ t, t ∈ triggersOf rules ↔ ∃ r ∈ rules, ∃ cons, r.rule = .compbrl t cons := by
    intro t
    unfold triggersOf
    rw [List.mem_filterMap]
    refine exists_congr fun r => and_congr_right fun _ => ?_
    constructor
    · intro e
      split at e
      · next t' c hr => injection e with e; subst e; exact ⟨c, hr⟩
      · cases e
    · rintro ⟨c, hr⟩; rw [hr]
  split at he
  · rename_i hemp
    have hnil : triggersOf rules = [] := by simpa using hemp
    refine ⟨[], by simpa using he, by simp, ?_⟩
    intro s
    simp only [List.not_mem_nil, false_iff]
    rintro ⟨-, -, r, hr, t, c, hrule, -⟩
    have := (htr t).2 ⟨r, hr, c, hrule⟩
    rw [hnil] at this; cases this
  · have hns : ∀ t ∈ triggersOf rules, ∀ p c, OccursAt t text p → text[p]? = some c → ctx.classes.isWhitespace c = false := by
      intro t ht p c h1 h2
      cases hs : ctx.classes.isWhitespace c with
      | false => rfl
      | true => exact absurd ⟨e, he⟩ (C30_diverges_wrong _ _ text spans t ht p c h1 h2 hs)
    obtain ⟨extra, h1, h2, h3, h4⟩ := C30_words_partial (triggersOf rules) ctx.classes.isWhitespace text spans hns
    refine ⟨extra, (h1 e).mp he, h2, ?_⟩
    intro s
    have := h4 s
    rw [List.mem_append] at this
    constructor
    · intro hs
      refine ⟨h3 s hs, ?_⟩
      rcases this.1 (.inr hs) with h' | ⟨k1, t, k2, q, k3, k4⟩
      · exact absurd h' (h3 s hs)
      · obtain ⟨r, hr, c, hrule⟩ := (htr t).1 k2
        exact ⟨k1, r, hr, t, c, hrule, q, k3, k4⟩
    · rintro ⟨hs, k1, r, hr, t, c, hrule, q, k3, k4⟩
      rcases this.2 (.inr ⟨k1, t, (htr t).2 ⟨r, hr, c, hrule⟩, q, k3, k4⟩) with h' | h'
      · exact absurd h' hs
      · exact h'

theorem table_signs {sys : Sys} {ctx : TableCtx} {d : Direction} {rules : List Anchored} {p : Primary}
    (h : MainStage sys ctx d rules p) (lower : Char → List Char) (text : Text) (all : List Span) (ps : List (Nat × Resolved))
    (hp : p.indicators.pairs lower text all = .ok ps) :
    ∃ comp emph num letters caps noc, ps = comp ++ emph ++ num ++ letters ++ caps ++ noc ∧
      TableSigns ctx lower rules text all comp emph num letters caps noc := by
  obtain ⟨emph, g, e1, e2, e3, -⟩ := C29_signs p.indicators.emph text all
  unfold Indicators.pairs at hp
  rw [e1] at hp
  injection hp with hp
  refine ⟨_, _, _, _, _, _, hp.symm, ?_, ?_, ?_, ?_, ?_, ?_⟩
  · rw [C61_computer_braille h]
    cases lastSign (fun | .begcomp dots _ => some dots | _ => none) rules with
    | none => rfl
    | some b => exact fun pos => spanSigns_model _ text all pos
  · rw [C61_emphasis h] at e2 e3
    exact ⟨g, e2, e3⟩
  · have hn := C61_numbers h
    cases hs : lastSign (fun | .numsign dots => some dots | _ => none) rules with
    | none =>
      cases hi : p.indicators.num with
      | none => rfl
      | some n =>
        obtain ⟨rfl, h1, -⟩ := (hn n).1 hi
        exact absurd hs h1
    | some sign =>
      cases hi : p.indicators.num with
      | none =>
        have hd : ctx.classes.members .litdigit = [] := by
          cases hd : ctx.classes.members .litdigit with
          | nil => rfl
          | cons a b =>
            have hst : (numConfig ctx.classes rules).start = some sign := hs
            have := (hn (numConfig ctx.classes rules)).2 ⟨rfl, by rw [hst]; simp, by rw [hd]; simp⟩
            rw [hi] at this; cases this
        have hno : ∀ q, ¬ DigitAt (numConfig ctx.classes rules).chars text q := by
          rintro q ⟨c, -, hc⟩
          have hc : c ∈ ctx.classes.members .litdigit := hc
          rw [hd] at hc; cases hc
        have hno' : ∀ q, ¬ InNumber (numConfig ctx.classes rules).chars text q := by
          rintro q ⟨k, -, hk, -⟩
          exact hno k hk
        refine ⟨by simp, ?_⟩
        intro q t
        simp only [List.not_mem_nil, false_iff]
        rintro ⟨-, ⟨-, h', -⟩ | ⟨-, ⟨k, -, h'⟩, -⟩⟩
        · exact hno _ h'
        · exact hno' _ h'
      | some n =>
        obtain ⟨rfl, -, -⟩ := (hn n).1 hi
        refine ⟨?_, fun q t => C21_number_sign _ text sign hs q t⟩
        show ((numConfig ctx.classes rules).precompute text).Pairwise _
        unfold NumIndicator.precompute
        rw [show (numConfig ctx.classes rules).start = some sign from hs]
        exact (numLoop_sorted _ text 0 false).2
  · have hl := C61_letter_sign h
    generalize hg : lastDots _ rules = o at hl
    cases hs : lastDots (fun | .letsign dots => some dots | _ => none) rules with
    | none =>
      have ho : o = none := by rw [← hg]; exact hs
      subst ho
      cases hi : p.indicators.letsign with
      | none => rfl
      | some l => rw [hi] at hl; exact hl.elim
    | some x =>
      obtain ⟨dots, origin⟩ := x
      have ho : o = some (dots, origin) := by rw [← hg]; exact hs
      subst ho
      cases hi : p.indicators.letsign with
      | none => rw [hi] at hl; exact hl.elim
      | some l =>
        rw [hi] at hl
        obtain ⟨k1, k2, k3, k4, k5, k6, k7⟩ := hl
        refine ⟨(C28_positions lower l text).1, ?_⟩
        intro q t
        rw [C28_letter_signs ctx.classes lower _ dots origin l k1 text q t]
        unfold IsolatedLetter
        rw [k2, k3, k4, k5, k6, k7]
        rfl
  · have hc := C61_capitals h
    dsimp only
    split
    · next hno =>
      obtain ⟨n1, n2, n3, n4⟩ := hno
      cases hi : p.indicators.caps with
      | none => rfl
      | some c =>
        obtain ⟨rfl, h1⟩ := (hc c).1 hi
        rw [n1, n2, n3, n4] at h1
        simp at h1
    · next hsome =>
      intro ws hws
      have hi : p.indicators.caps = some (capsConfig ctx.classes rules) := (hc _).2 ⟨rfl, by
        simp only [not_and] at hsome
        grind⟩
      rw [hi]
      refine (C27_signs _ text ?_ ws hws _).1 rfl
      have := ((hc _).1 hi).2
      unfold CapIndicator.isIndicating
      simp only [Option.isSome_iff_ne_none, Bool.or_eq_true]
      grind
  · have hl := C61_no_contraction_sign h
    cases hs : lastDots (fun | .nocontractsign dots _ => some dots | _ => none) rules with
    | none =>
      cases hi : p.indicators.nocontract with
      | none => rfl
      | some l =>
        rw [hi] at hl
        obtain ⟨dots, origin, hd, -⟩ := hl
        have := hs.symm.trans hd; cases this
    | some x =>
      obtain ⟨dots, origin⟩ := x
      cases hi : p.indicators.nocontract with
      | none =>
        rw [hi] at hl
        rcases hl with hl | hl
        · have := hs.symm.trans hl; cases this
        · refine ⟨by simp, ?_⟩
          intro q t
          rw [hl]
          simp
      | some l =>
        rw [hi] at hl
        obtain ⟨dots', origin', hd, -, k1, k2⟩ := hl
        have hd := hs.symm.trans hd
        injection hd with hd
        injection hd with hd1 hd2
        subst hd1 hd2
        refine ⟨?_, ?_⟩
        · unfold NocIndicator.precompute
          rw [List.pairwise_map]
          exact List.Pairwise.filter _ List.pairwise_lt_range
        · intro q t
          rw [C28_nocontract_signs ctx.classes lower _ dots origin l k2 text q t, k1]

/-! ## The property -/

/-- **C68**, main stage: for every table, text and list of spans, the signs in the trace of the main stage are exactly those the
lines of the table demand (`TableSigns`): at every position of the text that is reached, the signs of the position come first,
computer braille before emphasis, numbers, letter signs, capitals and no-contraction signs.  (Positions inside the text of a
rule with several characters are not reached, and their signs are lost: `C49_indicator_lost_wrong`.) -/
theorem C68_main_stage_signs (sys : Sys) (ctx : TableCtx) (d : Direction) (rules : List Anchored) (p : Primary)
    (h : MainStage sys ctx d rules p) (cs : Case) (text : Text) (spans : List Span) (ts : List Resolved)
    (ht : p.Traces cs text spans ts) : ∃ all comp emph num letters caps noc,
      AllSpans ctx rules text spans all ∧ TableSigns ctx cs.lower rules text all comp emph num letters caps noc ∧
      LaidOut (fun pos => atPos pos comp ++ atPos pos emph ++ atPos pos num ++ atPos pos letters ++ atPos pos caps ++ atPos pos noc)
        text.length 0 ts := by
  obtain ⟨all, cons, ind, h1, -, h3, h4⟩ := ht
  obtain ⟨ps, ind', i1, i2, -, -, i5⟩ := C22_indicators_total p.indicators cs.lower text all
  rw [h3] at i2
  injection i2 with i2
  subst i2
  obtain ⟨comp, emph, num, letters, caps, noc, e, hs⟩ := table_signs h cs.lower text all ps i1
  refine ⟨all, comp, emph, num, letters, caps, noc, allSpans h h1, hs, ?_⟩
  have hl := C49_layout_partial _ _ _ _ h.built cs cons _ (h.ind_empty h3) text ts h4
  have hf : (fun pos => (ind[pos]?).getD []) =
      fun pos => atPos pos comp ++ atPos pos emph ++ atPos pos num ++ atPos pos letters ++ atPos pos caps ++ atPos pos noc := by
    funext pos
    rw [i5 pos]
    show atPos pos ps = _
    rw [e]
    simp only [atPos_append]
  rw [hf] at hl
  exact hl

/-- **C68**, translations: the text the main stage reads gets the signs the lines of the table demand of it. -/
theorem C68_translation_signs (sys : Sys) (rules : List Anchored) (d : Direction) (steps : List Transform)
    (h : Pipeline.Compiles sys rules d steps) (cs : Case) (spans : List Span) (input output : Text)
    (ht : Pipeline.Translates cs spans input steps output) : ∃ before p after read ts all comp emph num letters caps noc,
      steps = before ++ [.primary p] ++ after ∧ Pipeline.Translates cs [] input before read ∧ p.Traces cs read spans ts ∧
      Pipeline.Translates cs [] (outputOf ts) after output ∧
      AllSpans (TableCtx.compile sys.alpha (allowedRules rules d)) (allowedRules rules d) read spans all ∧
      TableSigns (TableCtx.compile sys.alpha (allowedRules rules d)) cs.lower (allowedRules rules d) read all comp emph num letters caps noc ∧
      LaidOut (fun pos => atPos pos comp ++ atPos pos emph ++ atPos pos num ++ atPos pos letters ++ atPos pos caps ++ atPos pos noc)
        read.length 0 ts := by
  obtain ⟨before, p, after, e, hp, -, -, hk⟩ := C44_spans_main_stage sys rules d steps h
  obtain ⟨read, ts, h1, h2, h3⟩ := (hk cs spans input output).mp ht
  obtain ⟨all, comp, emph, num, letters, caps, noc, k1, k2, k3⟩ := C68_main_stage_signs sys _ d _ p hp cs read spans ts h2
  exact ⟨before, p, after, read, ts, all, comp, emph, num, letters, caps, noc, e, h1, h2, h3, k1, k2, k3⟩

/-! ## A concrete case -/

/-- A table with signs of several kinds. -/
def signsTable : String :=
  "space \\s 0\nlowercase a 1\nlowercase b 12\nuppercase A 1\nuppercase B 12\nlitdigit 1 16\n" ++
  "capsletter 6\nbegcapsword 6-6\nendcapsword 6-3\nnumsign 3456\nbegcomp 456\nendcomp 156\nbegemph italic 46\nendemph italic 46-3\n"

/-- Non-vacuity of the C68 theorems: capital, number, emphasis and computer-braille signs, and two kinds at one position. -/
example : SourceTranslates demoSys asciiCase signsTable.toList .forward
    [⟨"italic".toList, 0, 4⟩, ⟨"computer_braille".toList, 6, 8⟩] "AB 1 Ab".toList "⠨⠠⠠⠁⠃⠀⠼⠡⠨⠄⠀⠠⠁⠸⠃⠱".toList :=
  runSource_sound (fuel := 40) (by decide +kernel)

end Louis
