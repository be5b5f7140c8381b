import Verif.Props.Words
import Verif.Props.Whole
import Verif.Spec.Letters

/-!
# C85, C86: uncontracted braille with capitals and numbers, forward
-/

namespace Louis

/-! ## Texts that are translated piece by piece -/

/-- A piece of a text, what is made of it, and what is written for it. -/
structure Chunk where
  read : Text
  made : Made
  wrote : Text

def readOf (us : List Chunk) : Text := us.flatMap (·.read)

def wroteOf (us : List Chunk) : Text := us.flatMap (·.wrote)

theorem readOf_append (a b : List Chunk) : readOf (a ++ b) = readOf a ++ readOf b := by simp [readOf]

section

variable {T : MainTable} {L : Listing} {lower : Char → List Char} {f : Constraints}

theorem chunk_places {us : List Chunk} (h : ∀ u ∈ us, u.made.item.input = u.read) : placeOf (us.map (·.made)) = (readOf us).length := by
  induction us with
  | nil => rfl
  | cons u us ih =>
    have := ih fun v hv => h v (by simp [hv])
    rw [show u :: us = [u] ++ us from rfl, List.map_append, placeOf_join, readOf_append, List.length_append, this]
    congr 1
    simp [placeOf, itemsOf, dealtWith, readOf, h u (by simp)]

/-- If the table makes of every piece what is said, it makes of the text what is said of the pieces. -/
theorem run_chunks (hn : T.NoPatterns) (hz : L.Sized) (hs : T.Single) {us : List Chunk}
    (fits : ∀ u ∈ us, 0 < u.made.item.length ∧ u.made.item.input = u.read)
    (step : ∀ a u b, us = a ++ u :: b → ∀ prev, T.step L f (readOf a).length (u.read ++ readOf b) prev = some u.made) :
    T.Run L lower f (readOf us) (us.map (·.made)) := by
  have pos : ∀ m ∈ us.map (·.made), 0 < m.item.length := by
    intro m hm
    obtain ⟨u, hu, rfl⟩ := List.mem_map.1 hm
    exact (fits u hu).1
  constructor
  · intro i hi
    rw [List.length_map] at hi
    have e : us = us.take i ++ us[i] :: us.drop (i + 1) := by
      rw [← List.drop_eq_getElem_cons hi, List.take_append_drop]
    have ep : placeOf ((us.map (·.made)).take i) = (readOf (us.take i)).length := by
      rw [← List.map_take]
      exact chunk_places fun u hu => (fits u (List.mem_of_mem_take hu)).2
    rw [next_step hn (spentOn_nil fun m hm => pos m (List.mem_of_mem_take hm)), ep]
    have er : (readOf us).drop (readOf (us.take i)).length = us[i].read ++ readOf (us.drop (i + 1)) := by
      conv => lhs; arg 2; rw [e]
      rw [readOf_append, List.drop_left' rfl]
      rfl
    rw [er, step _ _ _ e, List.getElem_map]
  · rw [next_step hn (spentOn_nil pos), chunk_places fun u hu => (fits u hu).2, List.drop_length]
    exact step_end hz hs _ _ _

theorem outputOf_append' (a b : List Resolved) : outputOf (a ++ b) = outputOf a ++ outputOf b := by simp [outputOf]

/-- And it writes what is said. -/
theorem trace_chunks (cs : Case) (signs : Nat → List Resolved) {us : List Chunk}
    (fits : ∀ u ∈ us, 0 < u.made.item.length ∧ u.made.item.input = u.read)
    (wrote : ∀ a u b, us = a ++ u :: b →
      outputOf (signs (readOf a).length) ++ (T.shown cs f (readOf a).length u.made).output = u.wrote)
    (last : outputOf (signs (readOf us).length) = []) :
    outputOf (T.trace cs f signs (us.map (·.made))) = wroteOf us := by
  have pos : ∀ us : List Chunk, (∀ u ∈ us, 0 < u.made.item.length ∧ u.made.item.input = u.read) →
      ∀ m ∈ us.map (·.made), 0 < m.item.length := by
    intro us fits m hm
    obtain ⟨u, hu, rfl⟩ := List.mem_map.1 hm
    exact (fits u hu).1
  rw [trace_written T cs f signs (pos us fits), outputOf_append', chunk_places fun u hu => (fits u hu).2, last, List.append_nil]
  suffices ∀ n (us : List Chunk), us.length = n → (∀ u ∈ us, 0 < u.made.item.length ∧ u.made.item.input = u.read) →
      (∀ a u b, us = a ++ u :: b → outputOf (signs (readOf a).length) ++ (T.shown cs f (readOf a).length u.made).output = u.wrote) →
      outputOf (T.written cs f signs (us.map (·.made))) = wroteOf us from this _ us rfl fits wrote
  intro n
  induction n with
  | zero => intro us h _ _; rw [List.length_eq_zero_iff.1 h]; rfl
  | succ n ih =>
    intro us h hf hw
    rcases List.eq_nil_or_concat us with rfl | ⟨v, u, rfl⟩
    · cases h
    · rw [List.concat_eq_append] at h hf hw ⊢
      simp only [List.length_append, List.length_singleton] at h
      have hv : ∀ x ∈ v, 0 < x.made.item.length ∧ x.made.item.input = x.read := fun x hx => hf x (by simp [hx])
      rw [List.map_append, List.map_singleton, written_append, outputOf_append', outputOf_append', arrived_pos (pos v hv), if_pos rfl,
        ih v (by omega) hv (fun a x b e => hw a x (b ++ [u]) (by rw [e]; simp)), chunk_places fun x hx => (hv x hx).2]
      have := hw v u [] rfl
      rw [List.append_assoc]
      rw [show outputOf [T.shown cs f (readOf v).length u.made] = (T.shown cs f (readOf v).length u.made).output by simp [outputOf], this]
      simp [wroteOf]

end

/-! ## The lines -/

variable {sys : Sys} {ctx : TableCtx} {d : Direction} {rules : List Anchored} {p : Primary} {sign : Char} {num : Option Char}

theorem letter_defines (h : LetterByLetter sign num rules) {r : Anchored} (hr : r ∈ rules) {c : Char} {dots : Text}
    (hd : r.rule.Defines c dots) : ∃ k cells cons, r.rule = .charDef k c cells cons ∧ (num = none → k ≠ .litdigit) ∧ dots = cells.toText := by
  rcases h.lines r hr with ⟨hq, -⟩ | ⟨k, c', cells, cons, e, hk⟩ | ⟨c', b, e⟩ | ⟨cells, cons, e, -⟩ | ⟨n, cells, -, e, -⟩
  · rcases hd with ⟨k, cells, cons, e, -⟩ | ⟨cells, e, -⟩ <;> rw [e] at hq <;> cases hq
  · rcases hd with ⟨k', cells', cons', e', e''⟩ | ⟨cells', e', -⟩
    · rw [e] at e'; cases e'
      exact ⟨_, _, _, e, hk, e''⟩
    · rw [e] at e'; cases e'
  all_goals rcases hd with ⟨k', cells', cons', e', e''⟩ | ⟨cells', e', -⟩ <;> rw [e] at e' <;> cases e'

/-- What the lines add to the table. -/
def PrimOp.FromLetters (ctx : TableCtx) (d : Direction) (sign : Char) (num : Option Char) (r : Anchored) : PrimOp → Prop
  | .char c dots prec o => prec = .default ∧ o = r.origin ∧
      (r.rule.Defines c dots ∨ ∃ name b, r.rule = .base name c b ∧ ctx.defs.get b = some dots)
  | .rule n e => n = false ∧ d = .backward ∧ ∃ s, (s = sign ∨ num = some s) ∧ e = ⟨[], [s], none, none, [], .indicator, .main, r.origin⟩
  | .undefined _ | .digitOverride _ _ _ => True
  | _ => False

theorem letter_first (h : LetterByLetter sign num rules) {r : Anchored} (hr : r ∈ rules) :
    ∀ op ∈ r.firstOps, op.FromLetters ctx d sign num r := by
  intro op hop
  unfold Anchored.firstOps at hop
  split at hop
  · next c dots e =>
    rcases h.lines r hr with ⟨hq, -⟩ | ⟨k, c', cells, cons, e', hk⟩ | ⟨c', b, e'⟩ | ⟨cells, cons, e', -⟩ | ⟨n, cells, -, e', -⟩
    · rw [e] at hq; cases hq
    all_goals (rw [e] at e'; cases e')
  · next c dots cons e =>
    rw [List.mem_singleton.1 hop]
    exact ⟨by rw [e]; rfl, rfl, .inl (by rw [e]; exact .inl ⟨_, _, _, rfl, rfl⟩)⟩
  · cases hop

theorem letter_ops (h : LetterByLetter sign num rules) {r : Anchored} (hr : r ∈ rules) {L : List Char} {D : List Text} :
    ∀ op ∈ r.opsD ctx d L D, op.FromLetters ctx d sign num r := by
  intro op hop
  have dig : ∀ c (dots : Cells), ∀ op ∈ r.digitOps d D c dots, op.FromLetters ctx d sign num r := by
    intro c dots op hop
    unfold Anchored.digitOps at hop
    split at hop
    · split at hop
      · rw [List.mem_singleton.1 hop]; trivial
      · cases hop
    · cases hop
  have sig : ∀ (cells : Cells) (s : Char), (s = sign ∨ num = some s) → cells.toText = [s] → r.rule.prec = .indicator →
      ∀ op ∈ r.signOps d D cells, op.FromLetters ctx d sign num r := by
    intro cells s hs ht hp op hop
    unfold Anchored.signOps at hop
    split at hop
    · next hd =>
      rw [List.mem_singleton.1 hop]
      refine ⟨rfl, ?_, s, hs, by rw [ht, hp]⟩
      simp only [Bool.and_eq_true, beq_iff_eq] at hd
      exact hd.1
    · cases hop
  unfold Anchored.opsD at hop
  cases he : r.ops ctx d L D with
  | error e => rw [he] at hop; cases hop
  | ok ops =>
    rw [he] at hop
    have hop : op ∈ ops := hop
    rcases h.lines r hr with ⟨hq, -⟩ | ⟨k, c, cells, cons, e, hk⟩ | ⟨c, b, e⟩ | ⟨cells, cons, e, hs⟩ | ⟨n, cells, hn, e, hs⟩
    · unfold Anchored.ops at he
      generalize hrr : r.rule = rule at he hq
      cases rule <;> first
        | (cases hq; done)
        | (cases he; exact absurd hop List.not_mem_nil)
        | (cases he; rw [List.mem_singleton.mp hop]; trivial)
    · have hc : PrimOp.FromLetters ctx d sign num r (.char c cells.toText r.rule.prec r.origin) :=
        ⟨by rw [e]; rfl, rfl, .inl (by rw [e]; exact .inl ⟨_, _, _, rfl, rfl⟩)⟩
      unfold Anchored.ops at he
      rw [e] at he hc
      cases k
      case hyphen => cases he; cases hop
      case litdigit =>
        cases he
        rcases List.mem_cons.mp hop with rfl | hop
        · exact hc
        · exact dig c cells op hop
      case digit =>
        cases he
        rcases List.mem_append.mp hop with hop | hop
        · split at hop
          · cases hop
          · rw [List.mem_singleton.mp hop]; exact hc
        · exact dig c cells op hop
      all_goals (cases he; rw [List.mem_singleton.mp hop]; exact hc)
    · unfold Anchored.ops at he
      rw [e] at he
      simp only at he
      split at he
      · next dots hd =>
        cases he
        rw [List.mem_singleton.mp hop]
        exact ⟨rfl, rfl, .inr ⟨_, _, e, hd⟩⟩
      · cases he; cases hop
    · unfold Anchored.ops at he
      rw [e] at he
      cases he
      exact sig cells _ (.inl rfl) hs (by rw [e]; rfl) op hop
    · unfold Anchored.ops at he
      rw [e] at he
      cases he
      exact sig cells _ (.inr hn) hs (by rw [e]; rfl) op hop

theorem letter_table (h : LetterByLetter sign num rules) :
    ∀ op ∈ tableOps ctx d rules, ∃ r ∈ rules, op.FromLetters ctx d sign num r := by
  intro op hop
  obtain ⟨r, hr, hop⟩ := mem_tableOps hop
  rcases hop with hop | hop
  · exact ⟨r, hr, letter_first h hr op hop⟩
  · exact ⟨r, hr, letter_ops h hr op hop⟩

theorem letter_defs (h : LetterByLetter sign num rules) {r : Anchored} (hr : r ∈ rules) {c : Char} {dots : Text}
    (hd : r.rule.Defines c dots) : (TableCtx.compile sys.alpha rules).defs.get c = some dots := by
  rw [compile_defs]
  apply foldl_deriveDefs_mono
  have hm : (c, dots) ∈ rules.flatMap fun r => directOf r.rule := List.mem_flatMap.2 ⟨r, hr, (directOf_iff _ _ _).2 hd⟩
  cases hf : (rules.flatMap fun r => directOf r.rule).find? (·.1 == c) with
  | none => exact absurd (List.find?_eq_none.1 hf _ hm) (by simp)
  | some x =>
    obtain ⟨c', dots'⟩ := x
    have e := List.find?_some hf
    simp only [beq_iff_eq] at e
    subst e
    obtain ⟨q, hq, hx⟩ := List.mem_flatMap.1 (List.mem_of_find?_eq_some hf)
    have := h.one _ _ _ (.direct hq ((directOf_iff _ _ _).1 hx)) (.direct hr hd)
    subst this
    unfold CharDefs.get
    rw [hf]
    rfl

/-- What the table says of a character is its braille. -/
theorem letter_spelt (h : LetterByLetter sign num rules) {r : Anchored} (hr : r ∈ rules) {c : Char} {dots : Text} {prec : Prec} {o : Origin}
    (hop : PrimOp.FromLetters (TableCtx.compile sys.alpha rules) d sign num r (.char c dots prec o)) : Spelt rules c dots := by
  rcases hop.2.2 with hd | ⟨name, b, e, hb⟩
  · exact .direct hr hd
  · obtain ⟨q, hq, dots', hq'⟩ := h.based r hr name c b e
    have := letter_defs (sys := sys) h hq hq'
    rw [hb] at this
    cases this
    exact .derived hr e hq hq'

theorem noPatterns_letters (h : LetterByLetter sign num rules) :
    (mainTable (ctx.prim d) d (tableOps ctx d rules)).NoPatterns := by
  have no : ∀ r ∈ rules, (∀ a b c e f, r.rule ≠ .matchRule a b c e f) ∧ ∀ test action cons, r.rule ≠ .pass .context test action cons := by
    intro r hr
    rcases h.lines r hr with ⟨hq, -⟩ | ⟨k, c, cells, cons, e, hk⟩ | ⟨c, b, e⟩ | ⟨cells, cons, e, hs⟩ | ⟨n, cells, hn, e, hs⟩
    · exact ⟨fun _ _ _ _ _ e => (by rw [e] at hq; cases hq), fun _ _ _ e => by rw [e] at hq; cases hq⟩
    all_goals exact ⟨fun _ _ _ _ _ e' => (by rw [e] at e'; cases e'), fun _ _ _ e' => by rw [e] at e'; cases e'⟩
  constructor
  · show matchLinesOf _ = []
    rw [matchLines_table, List.filterMap_eq_nil_iff]
    intro r hr
    unfold matchLineOf
    split
    · next e => exact absurd e ((no r hr).1 _ _ _ _ _)
    · rfl
  · show contextLinesOf _ = []
    rw [contextLines_table, List.filterMap_eq_nil_iff]
    intro r hr
    unfold contextLineOf
    split
    · next e => exact absurd e ((no r hr).2 _ _ _)
    · rfl

/-- Nothing is listed but what the backward direction reads. -/
theorem letter_lists (h : LetterByLetter sign num rules) :
    nocrossRules (tableOps ctx d rules) = [] ∧ comp6Rules (tableOps ctx d rules) = [] ∧
      (d = .forward → trieRules d (tableOps ctx d rules) = []) := by
  refine ⟨?_, ?_, fun hd => ?_⟩
  · unfold nocrossRules
    rw [List.filterMap_eq_nil_iff]
    intro op hop
    obtain ⟨r, -, hf⟩ := letter_table h op hop
    split
    · exact absurd hf.1 (by decide)
    · rfl
  · unfold comp6Rules
    rw [List.filterMap_eq_nil_iff]
    intro op hop
    obtain ⟨r, -, hf⟩ := letter_table h op hop
    split
    · exact hf.elim
    · rfl
  · unfold trieRules
    rw [List.filterMap_eq_nil_iff]
    intro op hop
    obtain ⟨r, -, hf⟩ := letter_table h op hop
    split
    · rw [hd]; rfl
    · rw [hf.2.1] at hd; cases hd
    · rfl

/-! ## Signs -/

theorem atPos_marks {is : List Nat} (hs : is.Pairwise (· < ·)) (t : Resolved) (pos : Nat) :
    atPos pos (is.map fun i => (i, t)) = if pos ∈ is then [t] else [] := by
  induction is with
  | nil => rfl
  | cons i is ih =>
    obtain ⟨h1, h2⟩ := List.pairwise_cons.1 hs
    unfold atPos at ih ⊢
    rw [List.map_cons, List.filter_cons]
    by_cases hi : i = pos
    · subst hi
      have hn : i ∉ is := fun h => by have := h1 i h; omega
      have := ih h2
      rw [if_neg hn] at this
      simp [this]
    · have hi' : ¬ pos = i := fun h => hi h.symm
      have := ih h2
      simp only [beq_iff_eq, hi, if_false, List.mem_cons, hi', false_or]
      exact this

/-- With no other sign for capitals, the sign for letters stands at every upper-case letter, and nothing else is written. -/
theorem caps_letterwise (x : CapIndicator) (t : Resolved) (h1 : x.capsletter = some t) (h2 : x.begcapsword = none)
    (h3 : x.begcaps = none) (h4 : x.begcapsphrase = none) (text : Text) (pos : Nat) :
    atPos pos (x.precompute text) = if x.upperAt text pos = true then [t] else [] := by
  obtain ⟨pieces, e, hv, hord, hall⟩ := C27_announcements x text (by unfold CapIndicator.isIndicating; rw [h1]; rfl)
  have one : ∀ q ∈ pieces, ∃ i, q = .one (.letter i) ∧ x.upperAt text i = true := by
    intro q hq
    have := (hv q hq).1
    cases q with
    | one m =>
      cases m with
      | letter i => exact ⟨i, rfl, this.1⟩
      | word p e s => have := this.2.1; rw [h2] at this; cases this
      | mode p e => have := this.1; rw [h3] at this; cases this
    | phrase p e s => have := this.1; rw [h4] at this; cases this
  have key : ∀ ps : List CapPiece, (∀ q ∈ ps, ∃ i, q = .one (.letter i) ∧ x.upperAt text i = true) →
      ps.flatMap (·.emit x) = (ps.map CapPiece.start).map fun i => (i, t) := by
    intro ps hps
    induction ps with
    | nil => rfl
    | cons q ps ih =>
      obtain ⟨i, rfl, -⟩ := hps q (by simp)
      rw [List.flatMap_cons, ih fun q hq => hps q (by simp [hq])]
      simp [CapPiece.emit, CapMark.emit, h1, CapPiece.start, CapMark.start]
  have hsort : (pieces.map CapPiece.start).Pairwise (· < ·) := by
    rw [List.pairwise_map]
    refine hord.imp_of_mem ?_
    intro a b ha hb hab
    obtain ⟨i, rfl, -⟩ := one a ha
    exact hab.1
  rw [e, key pieces one, atPos_marks hsort]
  have : pos ∈ pieces.map CapPiece.start ↔ x.upperAt text pos = true := by
    constructor
    · intro hm
      obtain ⟨q, hq, rfl⟩ := List.mem_map.1 hm
      obtain ⟨i, rfl, hi⟩ := one q hq
      exact hi
    · intro hu
      obtain ⟨q, hq, ⟨ha, hb⟩, -⟩ := hall (.inl (by rw [h1]; rfl)) pos hu
      obtain ⟨i, rfl, -⟩ := one q hq
      have ha : i ≤ pos := ha
      have hb : pos < i + 1 := hb
      exact List.mem_map.2 ⟨_, hq, show i = pos by omega⟩
  simp only [this]

theorem emph_nospans (classes : List EmphClass) (text : Text) : emphPrecompute classes text [] = .ok [] := by
  obtain ⟨out, g, e, h1, h2, -⟩ := C29_signs classes text []
  have : ∀ (l : List EmphClass), (∀ x ∈ l, ClassSigns x text [] (g x)) → l.flatMap g = [] := by
    intro l hl
    rw [List.flatMap_eq_nil_iff]
    intro x hx
    obtain ⟨runs, f, r1, -, -, e⟩ := hl x hx
    have : runs = [] := by
      rw [List.eq_nil_iff_forall_not_mem]
      intro r hr
      have hs := (r1 r).1 hr
      have := (hs.all r.1 (Nat.le_refl _) hs.nonempty).1
      obtain ⟨-, s, hs, -⟩ := this
      cases hs
    rw [e, this]
    rfl
  rw [this _ h1] at h2
  rw [e, List.Perm.eq_nil h2]

/-- A line of such a table is of no other kind. -/
theorem letter_latest {α : Type} {f : Anchored → Option α} (h : ∀ r ∈ rules, f r = none) : latest f rules = none := by
  unfold latest
  rw [List.getLast?_eq_none_iff, List.filterMap_eq_nil_iff]
  exact h

theorem letter_kinds (h : LetterByLetter sign num rules) : ∀ r ∈ rules,
    (∀ dots cons, r.rule ≠ .begcapsword dots cons) ∧ (∀ dots, r.rule ≠ .begcaps dots) ∧ (∀ dots, r.rule ≠ .begcapsphrase dots) ∧
    (num = none → ∀ dots, r.rule ≠ .numsign dots) ∧ (∀ dots, r.rule ≠ .letsign dots) ∧ (∀ dots cons, r.rule ≠ .nocontractsign dots cons) ∧
    (∀ dots cons, r.rule ≠ .begcomp dots cons) ∧ (∀ t cons, r.rule ≠ .compbrl t cons) ∧ r.rule.IsPattern = false ∧
    (∀ k test action cons, r.rule ≠ .pass k test action cons) := by
  intro r hr
  generalize hrr : r.rule = rule
  have := h.lines r hr
  rw [hrr] at this
  rcases this with ⟨hq, -⟩ | ⟨k, c, cells, cons, rfl, hk⟩ | ⟨c, b, rfl⟩ | ⟨cells, cons, rfl, hs⟩ | ⟨n, cells, hn, rfl, hs⟩
  · cases rule
    all_goals first
      | (cases hq; done)
      | simp [Rule.IsPattern]
  all_goals simp [Rule.IsPattern]
  exact fun h => by rw [hn] at h; cases h

theorem letter_caps (h : LetterByLetter sign num rules) : ∃ o, (capsConfig ctx.classes rules).capsletter = some (indication [sign] o) := by
  obtain ⟨r, hr, cells, cons, e⟩ := h.signed
  cases hl : (capsConfig ctx.classes rules).capsletter with
  | none =>
    exfalso
    have hl : lastSign (fun | .capsletter dots _ => some dots | _ => none) rules = none := hl
    unfold lastSign latest at hl
    rw [List.getLast?_eq_none_iff, List.filterMap_eq_nil_iff] at hl
    have := hl r hr
    rw [e] at this
    cases this
  | some t =>
    have hl : lastSign (fun | .capsletter dots _ => some dots | _ => none) rules = some t := hl
    obtain ⟨q, hq, e⟩ := latest_of hl
    obtain ⟨dots, e1, e2⟩ := Option.map_eq_some_iff.1 e
    cases eq : q.rule with
    | capsletter dots' cons' =>
      rw [eq] at e1
      cases e1
      rcases h.lines q hq with ⟨hq, -⟩ | ⟨k, c', cells, cons, e', hk⟩ | ⟨c', b, e'⟩ | ⟨cells, cons, e', hs⟩ | ⟨n, cells, hn, e', hs⟩
      · rw [eq] at hq; cases hq
      · rw [eq] at e'; cases e'
      · rw [eq] at e'; cases e'
      · rw [eq] at e'; cases e'
        rw [hs] at e2
        exact ⟨_, by rw [e2]⟩
      · rw [eq] at e'; cases e'
    | _ => rw [eq] at e1; cases e1

theorem atPos_one {ps : List (Nat × Resolved)} (h : ps.Pairwise fun a b => a.1 < b.1) {pos : Nat} {t : Resolved}
    (hm : (pos, t) ∈ ps) : atPos pos ps = [t] := by
  induction ps with
  | nil => cases hm
  | cons q ps ih =>
    obtain ⟨h1, h2⟩ := List.pairwise_cons.1 h
    unfold atPos at ih ⊢
    rcases List.mem_cons.1 hm with rfl | hm
    · have : ps.filter (fun q => q.1 == pos) = [] := by
        rw [List.filter_eq_nil_iff]
        intro a ha
        have := h1 a ha
        simp only [beq_iff_eq]
        exact fun e => by simp only at this; omega
      simp [this]
    · have := h1 _ hm
      have hq : (q.1 == pos) = false := by
        rw [beq_eq_false_iff_ne]
        exact fun e => by simp only at this; omega
      rw [List.filter_cons, hq]
      exact ih h2 hm

/-- A number starts at the position: there is a digit, and none directly before it. -/
def NumberStarts (ctx : TableCtx) (rules : List Anchored) (text : Text) (pos : Nat) : Prop :=
  DigitAt (numChars ctx.classes rules) text pos ∧ ∀ q, q + 1 = pos → ¬ DigitAt (numChars ctx.classes rules) text q

/-- What the sign for numbers is. -/
theorem letter_number_sign (h : LetterByLetter sign num rules) {n : Char} (hn : num = some n) :
    ∃ o, (numConfig ctx.classes rules).start = some (indication [n] o) := by
  obtain ⟨r, hr, cells, e⟩ := h.numbered (by rw [hn]; simp)
  cases hl : (numConfig ctx.classes rules).start with
  | none =>
    exfalso
    have hl : lastSign (fun | .numsign dots => some dots | _ => none) rules = none := hl
    unfold lastSign latest at hl
    rw [List.getLast?_eq_none_iff, List.filterMap_eq_nil_iff] at hl
    have := hl r hr
    rw [e] at this
    cases this
  | some t =>
    have hl : lastSign (fun | .numsign dots => some dots | _ => none) rules = some t := hl
    obtain ⟨q, hq, e⟩ := latest_of hl
    obtain ⟨dots, e1, e2⟩ := Option.map_eq_some_iff.1 e
    cases eq : q.rule with
    | numsign dots' =>
      rw [eq] at e1
      cases e1
      rcases h.lines q hq with ⟨hq, -⟩ | ⟨k, c', cells, cons, e', hk⟩ | ⟨c', b, e'⟩ | ⟨cells, cons, e', hs⟩ | ⟨m, cells, hm, e', hs⟩
      · rw [eq] at hq; cases hq
      · rw [eq] at e'; cases e'
      · rw [eq] at e'; cases e'
      · rw [eq] at e'; cases e'
      · rw [eq] at e'; cases e'
        rw [hn] at hm
        cases hm
        rw [hs] at e2
        exact ⟨_, by rw [e2]⟩
    | _ => rw [eq] at e1; cases e1

/-- The number sign stands where a number starts. -/
theorem letter_numbers (hm : MainStage sys ctx d rules p) (h : LetterByLetter sign num rules) (text : Text) (pos : Nat) :
    (NumberStarts ctx rules text pos →
      outputOf (atPos pos (match p.indicators.num with | some c => c.precompute text | none => [])) = num.toList) ∧
    (¬ NumberStarts ctx rules text pos →
      outputOf (atPos pos (match p.indicators.num with | some c => c.precompute text | none => [])) = []) := by
  have none' : ∀ (f : Rule → Option Cells), (∀ r ∈ rules, f r.rule = none) → lastSign f rules = none :=
    fun f hf => signLast_none fun r hr => (by rw [hf r hr]; rfl)
  cases hn : num with
  | none =>
    have w4 : p.indicators.num = none := by
      cases e : p.indicators.num with
      | none => rfl
      | some n =>
        obtain ⟨rfl, hs, -⟩ := (C61_numbers hm n).1 e
        exact absurd (none' (fun | .numsign dots => some dots | _ => none) fun r hr => by
          have := (letter_kinds h r hr).2.2.2.1 hn
          cases e : r.rule <;> first | rfl | exact absurd e (this _)) hs
    rw [w4]
    exact ⟨fun _ => rfl, fun _ => rfl⟩
  | some n =>
    obtain ⟨o, ho⟩ := letter_number_sign (ctx := ctx) h hn
    by_cases hd : ctx.classes.members .litdigit = []
    · have hno : ¬ NumberStarts ctx rules text pos := by
        rintro ⟨⟨c, -, hc⟩, -⟩
        have hc : c ∈ ctx.classes.members .litdigit := hc
        rw [hd] at hc
        cases hc
      refine ⟨fun h => absurd h hno, fun _ => ?_⟩
      cases e : p.indicators.num with
      | none => rfl
      | some m => exact absurd hd ((C61_numbers hm m).1 e).2.2
    · rw [(C61_numbers hm _).2 ⟨rfl, by rw [ho]; simp, hd⟩]
      have hstop : (numConfig ctx.classes rules).stop = none := none' (fun | .nonumsign dots _ => some dots | _ => none) fun r hr => by
        rcases h.lines r hr with ⟨hq, -⟩ | ⟨k, c', cells, cons, e', hk⟩ | ⟨c', b, e'⟩ | ⟨cells, cons, e', hs⟩ | ⟨m, cells, hm, e', hs⟩
        · cases e : r.rule <;> first | rfl | (rw [e] at hq; cases hq)
        all_goals rw [e']
      have hext : (numChars ctx.classes rules).extra = [] := by
        show (lastArg (fun | .numericmodechars cs => some cs | _ => none) rules).getD [] = []
        have : lastArg (fun | .numericmodechars cs => some cs | _ => none) rules = none := signLast_none fun r hr => by
          rcases h.lines r hr with ⟨-, -, hq⟩ | ⟨k, c', cells, cons, e', hk⟩ | ⟨c', b, e'⟩ | ⟨cells, cons, e', hs⟩ | ⟨m, cells, hm, e', hs⟩
          · have := hq (by rw [hn]; simp)
            cases e : r.rule <;> first | rfl | exact absurd e (this _)
          all_goals rw [e']
        rw [this]
        rfl
      have hmid : (numChars ctx.classes rules).mid = [] := by
        show allChars _ rules ++ allChars _ rules = []
        rw [List.append_eq_nil_iff]
        unfold allChars
        rw [List.flatMap_eq_nil_iff, List.flatMap_eq_nil_iff]
        constructor <;>
        · intro r hr
          rcases h.lines r hr with ⟨hq, -⟩ | ⟨k, c', cells, cons, e', hk⟩ | ⟨c', b, e'⟩ | ⟨cells, cons, e', hs⟩ | ⟨m, cells, hm, e', hs⟩
          · cases e : r.rule <;> first | rfl | (rw [e] at hq; cases hq)
          all_goals rw [e']; rfl
      have hin : ∀ q, InNumber (numChars ctx.classes rules) text q ↔ DigitAt (numChars ctx.classes rules) text q := by
        intro q
        rw [inNumber_step]
        constructor
        · rintro (h | ⟨-, c, e, h | h | ⟨-, h, -⟩⟩)
          · exact h
          · exact ⟨c, e, h⟩
          · rw [hext] at h; cases h
          · rw [hmid] at h; cases h
        · exact .inl
      have hkey := C21_number_sign (numConfig ctx.classes rules) text _ ho pos
      constructor
      · rintro ⟨h1, h2⟩
        have hlt : pos < text.length := by
          obtain ⟨c, e, -⟩ := h1
          exact (List.getElem?_eq_some_iff.1 e).1
        rw [atPos_one (C21_once _ text) ((hkey _).2 ⟨hlt, .inl ⟨rfl, h1, fun ⟨q, e, hq⟩ => h2 q e ((hin q).1 hq)⟩⟩)]
        rfl
      · intro hno
        rw [atPos_none]
        · rfl
        · rintro ⟨i, t⟩ ht hi
          have hi : i = pos := hi
          subst hi
          rcases ((hkey t).1 ht).2 with ⟨-, h1, h2⟩ | ⟨h1, -⟩
          · exact hno ⟨h1, fun q e hq => h2 ⟨q, e, (hin q).2 hq⟩⟩
          · rw [hstop] at h1; cases h1

/-- The signs for a text without spans: that for numbers where a number starts, and that for capitals at every upper-case
letter. -/
theorem letter_all_signs (hm : MainStage sys ctx d rules p) (h : LetterByLetter sign num rules) (lower : Char → List Char) (text : Text)
    {ps : List (Nat × Resolved)} (hp : p.indicators.pairs lower text [] = .ok ps) (pos : Nat) :
    (NumberStarts ctx rules text pos → outputOf (atPos pos ps) = num.toList ++
      if (capsConfig ctx.classes rules).upperAt text pos = true then [sign] else []) ∧
    (¬ NumberStarts ctx rules text pos → outputOf (atPos pos ps) =
      if (capsConfig ctx.classes rules).upperAt text pos = true then [sign] else []) := by
  have hk := letter_kinds h
  obtain ⟨o, ho⟩ := letter_caps (ctx := ctx) h
  have none' : ∀ (f : Rule → Option Cells), (∀ r ∈ rules, f r.rule = none) → lastSign f rules = none ∧ lastDots f rules = none :=
    fun f hf => ⟨signLast_none fun r hr => (by rw [hf r hr]; rfl), signLast_none fun r hr => by rw [hf r hr]; rfl⟩
  have w1 : (capsConfig ctx.classes rules).begcapsword = none := (none' (fun | .begcapsword dots _ => some dots | _ => none) fun r hr => by
    have := (hk r hr).1
    cases e : r.rule <;> first | rfl | exact absurd e (this _ _)).1
  have w2 : (capsConfig ctx.classes rules).begcaps = none := (none' (fun | .begcaps dots => some dots | _ => none) fun r hr => by
    have := (hk r hr).2.1
    cases e : r.rule <;> first | rfl | exact absurd e (this _)).1
  have w3 : (capsConfig ctx.classes rules).begcapsphrase = none := (none' (fun | .begcapsphrase dots => some dots | _ => none) fun r hr => by
    have := (hk r hr).2.2.1
    cases e : r.rule <;> first | rfl | exact absurd e (this _)).1
  have w5 : p.indicators.letsign = none := by
    have hl := C61_letter_sign hm
    have hn := (none' (fun | .letsign dots => some dots | _ => none) fun r hr => by
        have := (hk r hr).2.2.2.2.1
        cases e : r.rule <;> first | rfl | exact absurd e (this _)).2
    generalize hg : lastDots _ rules = o at hl
    rw [show o = none from hg.symm.trans hn] at hl
    cases e : p.indicators.letsign with
    | none => rfl
    | some l => rw [e] at hl; exact hl.elim
  have w6 : p.indicators.nocontract = none := by
    have hl := C61_no_contraction_sign hm
    have hn := (none' (fun | .nocontractsign dots _ => some dots | _ => none) fun r hr => by
        have := (hk r hr).2.2.2.2.2.1
        cases e : r.rule <;> first | rfl | exact absurd e (this _ _)).2
    cases e : p.indicators.nocontract with
    | none => rfl
    | some l =>
      rw [e] at hl
      obtain ⟨dots, origin, hd, -⟩ := hl
      have := hn.symm.trans hd
      cases this
  have w7 : p.indicators.comp = none := by
    rw [C61_computer_braille hm]
    have hn := (none' (fun | .begcomp dots _ => some dots | _ => none) fun r hr => by
        have := (hk r hr).2.2.2.2.2.2.1
        cases e : r.rule <;> first | rfl | exact absurd e (this _ _)).1
    generalize hg : lastSign (fun | .begcomp dots _ => some dots | _ => none) rules = o
    rw [show o = none from hg.symm.trans hn]
    rfl
  have w8 : p.indicators.caps = some (capsConfig ctx.classes rules) := (C61_capitals hm _).2 ⟨rfl, .inl (by rw [ho]; simp)⟩
  unfold Indicators.pairs at hp
  rw [emph_nospans, w5, w6, w7, w8] at hp
  cases hp
  simp only [List.nil_append, List.append_nil]
  rw [atPos_append, outputOf_append', caps_letterwise _ _ ho w1 w2 w3]
  obtain ⟨n1, n2⟩ := letter_numbers hm h text pos
  constructor
  · intro hs
    exact congr (congrArg HAppend.hAppend (n1 hs)) (by split <;> rfl)
  · intro hs
    refine (congrArg (· ++ _) (n2 hs)).trans ?_
    rw [List.nil_append]
    split <;> rfl

/-- What the main stage does with a text without spans. -/
theorem letter_view (hm : MainStage sys ctx d rules p) (h : LetterByLetter sign num rules) (cs : Case) (text : Text) :
    ∃ flags ps made, FlagsOf sys ctx d rules [] text flags ∧ p.indicators.pairs cs.lower text [] = .ok ps ∧
      (mainTable (ctx.prim d) d (tableOps ctx d rules)).Run (listing p.table cs.lower) cs.lower flags text made ∧
      ∀ ts, p.Traces cs text [] ts ↔
        ts = (mainTable (ctx.prim d) d (tableOps ctx d rules)).trace cs flags (fun i => atPos i ps) made := by
  obtain ⟨hc1, hc2, hc3⟩ := hm.constrainers
  obtain ⟨flags, hflags⟩ := C22_constraints_total p.constrainers hc1 hc2 hc3 text []
  obtain ⟨ps, ind, i1, hind, -, -, i5⟩ := C22_indicators_total p.indicators cs.lower text []
  have ht : p.triggers.isEmpty = true := by
    rw [hm.triggers]
    have : triggersOf rules = [] := by
      unfold triggersOf
      rw [List.filterMap_eq_nil_iff]
      intro r hr
      split
      · next e => exact absurd e ((letter_kinds h r hr).2.2.2.2.2.2.2.1 _ _)
      · rfl
    rw [this]; rfl
  have hf : (fun pos => (ind[pos]?).getD []) = fun pos => atPos pos ps := by
    funext pos
    rw [i5 pos]
    rfl
  obtain ⟨made, hrun, htr⟩ := main_listed hm.built (noPatterns_plain (noPatterns_letters h)) cs flags (fun i => atPos i ps)
    (fun pos r hr => hm.ind_empty hind pos r (by rw [congrFun hf pos]; exact hr)) text
  refine ⟨flags, ps, made, flags_table hm (by rw [if_pos ht]) hflags, i1, hrun, fun ts => ?_⟩
  rw [← htr ts, ← hf]
  constructor
  · rintro ⟨e, flags', ind', g1, g2, g3, g4⟩
    rw [if_pos ht] at g1
    subst g1
    rw [hflags] at g2
    rw [hind] at g3
    cases g2
    cases g3
    exact g4
  · intro h
    exact ⟨[], flags, ind, by rw [if_pos ht], hflags, hind, h⟩

/-- Which characters are upper-case letters. -/
theorem letter_upper (h : LetterByLetter sign num rules) (c : Char) :
    (c ∈ (TableCtx.compile sys.alpha rules).classes.members .letter ∧ c ∈ (TableCtx.compile sys.alpha rules).classes.members .uppercase) ↔
      ∃ r ∈ rules, r.rule.Raises c := by
  rw [mem_members, mem_members]
  have hu : ∀ name, CharClass.ofName name = .uppercase → name = "uppercase".toList := by
    intro name hn
    unfold CharClass.ofName at hn
    repeat' split at hn
    all_goals first | assumption | cases hn
  constructor
  · rintro ⟨-, h2⟩
    obtain ⟨pre, r, post, er, hp⟩ := (C43_characters sys.alpha rules .uppercase c).1 h2
    have hr : r ∈ rules := by rw [er]; simp
    have hl := h.lines r hr
    refine ⟨r, hr, ?_⟩
    generalize hk : CharClass.uppercase = k at hp
    generalize hrr : r.rule = rl at hp hl ⊢
    have no : ∀ name, CharClass.uppercase = CharClass.ofName name → rl.fills = some name → False := by
      intro name h1 h2
      rcases hl with ⟨-, hq, -⟩ | ⟨k, c, cells, cons, rfl, hk⟩ | ⟨c, b, rfl⟩ | ⟨cells, cons, rfl, hs⟩ | ⟨n, cells, hn, rfl, hs⟩
      · exact (hq name h2).1 (hu name h1.symm)
      all_goals cases h2
    cases hp with
    | charDef kind c dots cons k h' =>
      subst hk
      cases h'
      exact .upper
    | base name derived b =>
      rw [hu name hk.symm]
      exact .base
    | baseLetter => cases hk
    | attr name => exact (no _ hk rfl).elim
    | swapcc name => exact (no _ hk rfl).elim
    | swapcd name => exact (no _ hk rfl).elim
    | swapdd name => exact (no _ hk rfl).elim
    | _ => cases hk
  · rintro ⟨r, hr, hc⟩
    obtain ⟨pre, post, er⟩ := List.append_of_mem hr
    have hd : ∀ {b : Char}, r.rule = .base "uppercase".toList c b → ((defsBefore rules pre).get b).isSome = true := by
      intro b hb
      obtain ⟨q, hq, dots, hd⟩ := h.based r hr _ c b hb
      have hm : (b, dots) ∈ rules.flatMap fun r => directOf r.rule := List.mem_flatMap.2 ⟨q, hq, (directOf_iff _ _ _).2 hd⟩
      cases hf : CharDefs.get (rules.flatMap fun r => directOf r.rule) b with
      | none =>
        unfold CharDefs.get at hf
        rw [Option.map_eq_none_iff, List.find?_eq_none] at hf
        exact absurd (hf _ hm) (by simp)
      | some x =>
        unfold defsBefore
        rw [foldl_deriveDefs_mono _ _ _ _ hf]
        rfl
    generalize hrr : r.rule = rl at hc hd
    cases hc with
    | upper =>
      exact ⟨(C43_characters sys.alpha rules .letter c).2 ⟨pre, r, post, er, by rw [hrr]; exact .charDef _ _ _ _ _ .uppercaseLetter⟩,
        (C43_characters sys.alpha rules .uppercase c).2 ⟨pre, r, post, er, by rw [hrr]; exact .charDef _ _ _ _ _ .uppercase⟩⟩
    | base =>
      exact ⟨(C43_characters sys.alpha rules .letter c).2 ⟨pre, r, post, er, by rw [hrr]; exact .baseLetter _ _ _ (hd rfl) (.inl rfl)⟩,
        (C43_characters sys.alpha rules .uppercase c).2 ⟨pre, r, post, er, by
          rw [hrr]; exact Rule.PutsChar.base "uppercase".toList _ _ (hd rfl)⟩⟩

/-! ## Forward -/

/-- Every character with braille is in the table. -/
theorem letter_present (h : LetterByLetter sign num rules) {c : Char} {dots : Text} (hc : Spelt rules c dots) :
    ∃ o, .char c dots .default o ∈ tableOps (TableCtx.compile sys.alpha rules) d rules := by
  have second : ∀ {r : Anchored} {op : PrimOp}, r ∈ rules → op ∈ r.opsD (TableCtx.compile sys.alpha rules) d (litdigitChars d rules)
      (letterDotsOf d rules) → op ∈ tableOps (TableCtx.compile sys.alpha rules) d rules := by
    intro r op hr hop
    exact List.mem_append_right _ (List.mem_flatMap.2 ⟨r, hr, hop⟩)
  have lit : ∀ {q : Anchored} {c : Char} {cells : Cells} {cons : RuleCons}, q ∈ rules → q.rule = .charDef .litdigit c cells cons →
      ∃ o, .char c cells.toText .default o ∈ tableOps (TableCtx.compile sys.alpha rules) d rules := by
    intro q c cells cons hq e
    have hp : q.rule.prec = .default := by rw [e]; rfl
    refine ⟨q.origin, second hq ?_⟩
    unfold Anchored.opsD Anchored.ops
    rw [hp, e]
    exact List.mem_cons_self
  cases hc with
  | @direct r _ _ hr hd =>
    obtain ⟨k, cells, cons, e, hk, rfl⟩ := letter_defines h hr hd
    have hp : r.rule.prec = .default := by rw [e]; rfl
    cases k
    case hyphen =>
      refine ⟨r.origin, List.mem_append_left _ (List.mem_flatMap.2 ⟨r, hr, ?_⟩)⟩
      unfold Anchored.firstOps
      rw [hp, e]
      exact List.mem_singleton.2 rfl
    case litdigit => exact lit hr e
    case digit =>
      by_cases hno : (litdigitChars d rules).contains c = true
      · rw [List.contains_eq_mem, decide_eq_true_iff] at hno
        unfold litdigitChars at hno
        cases d with
        | backward => cases hno
        | forward =>
          obtain ⟨q, hq, hqe⟩ := List.mem_filterMap.1 hno
          split at hqe
          · next e' =>
            cases hqe
            obtain ⟨o, ho⟩ := lit hq e'
            have := h.one _ _ _ (.direct hr (by rw [e]; exact .inl ⟨_, _, _, rfl, rfl⟩)) (.direct hq (by rw [e']; exact .inl ⟨_, _, _, rfl, rfl⟩))
            exact ⟨o, by rw [this]; exact ho⟩
          · cases hqe
      · refine ⟨r.origin, second hr ?_⟩
        unfold Anchored.opsD Anchored.ops
        rw [hp, e]
        simp only [hno]
        exact List.mem_append_left _ (List.mem_singleton.2 rfl)
    all_goals
      refine ⟨r.origin, second hr ?_⟩
      unfold Anchored.opsD Anchored.ops
      rw [hp, e]
      exact List.mem_singleton.2 rfl
  | @derived r q name _ b _ hr e hq hd =>
    refine ⟨r.origin, second hr ?_⟩
    have hp : r.rule.prec = .default := by rw [e]; rfl
    unfold Anchored.opsD Anchored.ops
    rw [hp, e]
    simp only [letter_defs (sys := sys) h hq hd]
    exact List.mem_singleton.2 rfl

theorem letter_spelled (h : LetterByLetter sign num rules) {c : Char} {dots : Text} (hc : Spelt rules c dots) :
    ((mainTable ((TableCtx.compile sys.alpha rules).prim .forward) .forward
      (tableOps (TableCtx.compile sys.alpha rules) .forward rules)).spelled c).output = dots := by
  obtain ⟨o, hop⟩ := letter_present (sys := sys) (d := .forward) h hc
  unfold MainTable.spelled
  have hm : (c, Resolved.new [c] dots 1 .main (some o)) ∈ (mainTable ((TableCtx.compile sys.alpha rules).prim .forward) .forward
      (tableOps (TableCtx.compile sys.alpha rules) .forward rules)).chars :=
    List.mem_filterMap.2 ⟨_, hop, rfl⟩
  cases hf : (mainTable ((TableCtx.compile sys.alpha rules).prim .forward) .forward
      (tableOps (TableCtx.compile sys.alpha rules) .forward rules)).chars.find? (·.1 == c) with
  | none => exact absurd (List.find?_eq_none.1 hf _ hm) (by simp)
  | some x =>
    obtain ⟨c', t⟩ := x
    have e := List.find?_some hf
    simp only [beq_iff_eq] at e
    subst e
    obtain ⟨op, hop', hx⟩ := List.mem_filterMap.1 (List.mem_of_find?_eq_some hf)
    obtain ⟨r, hr, hl⟩ := letter_table h op hop'
    split at hx
    · cases hx
      exact h.one _ _ _ (letter_spelt h hr hl) hc
    · cases hx

theorem listed_none {T : MainTable} {lower : Char → List Char} {rest : Text} {prev : Option Char} {l : List Resolved}
    (h : ∀ o, o ∈ l ↔ T.Offers lower [] rest prev o) : l = [] := by
  rw [List.eq_nil_iff_forall_not_mem]
  intro o ho
  obtain ⟨e, he, -⟩ := (h o).1 ho
  cases he

/-- Which characters are digits. -/
theorem letter_digit (c : Char) : c ∈ (TableCtx.compile sys.alpha rules).classes.members .litdigit ↔ ∃ r ∈ rules, r.rule.IsDigit c := by
  rw [mem_members]
  constructor
  · intro hc
    obtain ⟨pre, r, post, er, hp⟩ := (C43_characters sys.alpha rules .litdigit c).1 hc
    refine ⟨r, by rw [er]; simp, ?_⟩
    have hn : ∀ name, CharClass.ofName name ≠ .litdigit := by
      intro name
      unfold CharClass.ofName
      repeat' split
      all_goals simp
    generalize hk : CharClass.litdigit = k at hp
    generalize hrr : r.rule = rl at hp ⊢
    cases hp with
    | charDef kind c dots cons k h' =>
      subst hk
      cases h'
      exact ⟨_, _, rfl⟩
    | base name => exact absurd hk.symm (hn _)
    | attr name => exact absurd hk.symm (hn _)
    | swapcc name => exact absurd hk.symm (hn _)
    | swapcd name => exact absurd hk.symm (hn _)
    | swapdd name => exact absurd hk.symm (hn _)
    | _ => cases hk
  · rintro ⟨r, hr, cells, cons, e⟩
    obtain ⟨pre, post, er⟩ := List.append_of_mem hr
    exact (C43_characters sys.alpha rules .litdigit c).2 ⟨pre, r, post, er, by rw [e]; exact .charDef _ _ _ _ _ .litdigit⟩

/-- What is written at a position. -/
def wroteAt (sign : Char) (num : Option Char) (upper digit : Char → Bool) (code : Char → Text) (text : Text) (x : Char × Nat) : Text :=
  (if digit x.1 && !(match x.2 with | 0 => false | i + 1 => (text[i]?).any digit) then num.toList else []) ++
    (if upper x.1 then [sign] else []) ++ code x.1

theorem spelledOut_at (sign : Char) (num : Option Char) (upper digit : Char → Bool) (code : Char → Text) (text : Text) :
    text.zipIdx.flatMap (wroteAt sign num upper digit code text) = spelledOut sign num upper digit code false text := by
  suffices ∀ (rest pre : Text), text = pre ++ rest → (rest.zipIdx pre.length).flatMap (wroteAt sign num upper digit code text) =
      spelledOut sign num upper digit code (match pre.length with | 0 => false | i + 1 => (text[i]?).any digit) rest from
    this text [] rfl
  intro rest
  induction rest with
  | nil => intro pre _; rfl
  | cons c rest ih =>
    intro pre e
    have := ih (pre ++ [c]) (by rw [e]; simp)
    rw [List.length_append, List.length_singleton] at this
    rw [List.zipIdx_cons, List.flatMap_cons, this, spelledOut]
    congr 1
    have hc : text[pre.length]? = some c := by
      rw [e, List.getElem?_append_right (Nat.le_refl _), Nat.sub_self]
      rfl
    simp only [hc]
    rfl

/-- **C86**, main stage, forward: character by character, with the sign for capitals before every upper-case letter and that for
numbers before the first digit of every number. -/
theorem C86_main_forward (hm : MainStage sys (TableCtx.compile sys.alpha rules) .forward rules p) (h : LetterByLetter sign num rules)
    (cs : Case) (text : Text) (code : Char → Text) (hcode : ∀ c ∈ text, Spelt rules c (code c)) (upper : Char → Bool)
    (hupper : ∀ c ∈ text, upper c = true ↔ ∃ r ∈ rules, r.rule.Raises c) (digit : Char → Bool)
    (hdigit : ∀ c ∈ text, digit c = true ↔ ∃ r ∈ rules, r.rule.IsDigit c) (ts : List Resolved) (ht : p.Traces cs text [] ts) :
    outputOf ts = spelledOut sign num upper digit code false text := by
  obtain ⟨flags, ps, made, hf, hps, hrun, htr⟩ := letter_view hm h cs text
  obtain rfl := (htr ts).1 ht
  have hok := hm.built.ok
  have hz := listing_sized (lower := cs.lower) hok
  have hs := mainTable_single ((TableCtx.compile sys.alpha rules).prim .forward) .forward (tableOps (TableCtx.compile sys.alpha rules) .forward rules)
  have hn := noPatterns_letters (ctx := TableCtx.compile sys.alpha rules) (d := .forward) h
  have hL := hm.built.faithful.lists cs.lower
  obtain ⟨n1, n2, n3⟩ := letter_lists (ctx := TableCtx.compile sys.alpha rules) (d := .forward) h
  have n3 := n3 rfl
  generalize hT : mainTable ((TableCtx.compile sys.alpha rules).prim .forward) .forward
    (tableOps (TableCtx.compile sys.alpha rules) .forward rules) = T at *
  have e1 : T.unbroken = [] := by rw [← hT]; exact n1
  have e2 : T.computer = [] := by rw [← hT]; exact n2
  have e3 : T.entries = [] := by rw [← hT]; exact n3
  have ed : T.dir = .forward := by rw [← hT]; rfl
  let us : List Chunk := text.zipIdx.map fun x => ⟨[x.1], ⟨.spelled, T.spelled x.1⟩, wroteAt sign num upper digit code text x⟩
  have hread : readOf us = text := by
    have : readOf us = text.zipIdx.map Prod.fst := by
      simp only [us, readOf, List.flatMap_map]
      generalize text.zipIdx = l
      induction l with
      | nil => rfl
      | cons x l ih => rw [List.flatMap_cons, ih]; rfl
    rw [this, List.zipIdx_map_fst]
  have fits : ∀ u ∈ us, 0 < u.made.item.length ∧ u.made.item.input = u.read := by
    intro u hu
    obtain ⟨⟨c, i⟩, -, rfl⟩ := List.mem_map.1 hu
    exact ⟨by rw [(hs.spelled c).2]; exact Nat.one_pos, (hs.spelled c).1⟩
  have at' : ∀ a u b, us = a ++ u :: b → ∃ c, text[(readOf a).length]? = some c ∧ c ∈ text ∧
      u = ⟨[c], ⟨.spelled, T.spelled c⟩, wroteAt sign num upper digit code text (c, (readOf a).length)⟩ := by
    intro a u b e
    have hlen : (readOf a).length = a.length := by
      have : ∀ x ∈ a, x.read.length = 1 := by
        intro x hx
        have hx : x ∈ us := by rw [e]; simp [hx]
        obtain ⟨y, -, rfl⟩ := List.mem_map.1 hx
        rfl
      clear e
      induction a with
      | nil => rfl
      | cons x a ih =>
        have h1 := ih fun y hy => this y (by simp [hy])
        have h2 := this x (by simp)
        simp only [readOf, List.flatMap_cons, List.length_append, List.length_cons] at h1 ⊢
        omega
    have hu : us[a.length]? = some u := by rw [e, List.getElem?_append_right (Nat.le_refl _), Nat.sub_self]; rfl
    rw [hlen]
    simp only [us, List.getElem?_map, List.getElem?_zipIdx, Option.map_map, Option.map_eq_some_iff] at hu
    obtain ⟨c, hc, rfl⟩ := hu
    exact ⟨c, hc, List.mem_of_getElem? hc, by simp⟩
  have hr2 : T.Run (listing p.table cs.lower) cs.lower flags (readOf us) (us.map (·.made)) := by
    refine run_chunks hn hz hs fits ?_
    intro a u b e prev
    obtain ⟨c, -, -, rfl⟩ := at' a u b e
    have l1 := listed_none (l := (listing p.table cs.lower).unbroken ([c] ++ readOf b) prev) (T := T) (lower := cs.lower)
      (fun o => by rw [← e1]; exact hL.unbroken _ _ o)
    have l2 := listed_none (l := (listing p.table cs.lower).computer ([c] ++ readOf b) prev) (T := T) (lower := cs.lower)
      (fun o => by rw [← e2]; exact hL.computer _ _ o)
    have l3 := listed_none (l := (listing p.table cs.lower).entries ([c] ++ readOf b) prev) (T := T) (lower := cs.lower)
      (fun o => by rw [← e3]; exact hL.entries _ _ o)
    unfold MainTable.step MainTable.digitsFirst
    rw [l1, l2, l3]
    simp [lastHeaviest, ed]
  rw [hread] at hr2
  rw [hrun.unique hr2, trace_chunks cs _ fits]
  · simp only [us, wroteOf, List.flatMap_map]
    exact spelledOut_at _ _ _ _ _ _
  · intro a u b e
    obtain ⟨c, hc, hct, rfl⟩ := at' a u b e
    have hup : (if (capsConfig (TableCtx.compile sys.alpha rules).classes rules).upperAt text (readOf a).length = true then [sign] else []) =
        (if upper c then [sign] else []) := by
      have : (capsConfig (TableCtx.compile sys.alpha rules).classes rules).upperAt text (readOf a).length = true ↔ upper c = true := by
        rw [upperAt_iff, hupper c hct, ← letter_upper (sys := sys) h]
        constructor
        · rintro ⟨c', e', h'⟩
          rw [hc] at e'
          cases e'
          exact h'
        · intro h'
          exact ⟨c, hc, h'⟩
      by_cases hu : upper c = true
      · rw [if_pos (this.2 hu), if_pos hu]
      · rw [if_neg fun h' => hu (this.1 h'), if_neg hu]
    have hdig : ∀ i c, text[i]? = some c → (DigitAt (numChars (TableCtx.compile sys.alpha rules).classes rules) text i ↔ digit c = true) := by
      intro i c hi
      rw [hdigit c (List.mem_of_getElem? hi), ← letter_digit (sys := sys)]
      constructor
      · rintro ⟨c', e', h'⟩
        rw [hi] at e'
        cases e'
        exact h'
      · intro h'
        exact ⟨c, hi, h'⟩
    have hsh : (T.shown cs flags (readOf a).length ⟨.spelled, T.spelled c⟩).output = code c := by
      unfold MainTable.shown
      rw [if_pos (.inl rfl), ← hT]
      exact letter_spelled h (hcode c hct)
    have hst : NumberStarts (TableCtx.compile sys.alpha rules) rules text (readOf a).length ↔
        (digit c && !(match (readOf a).length with | 0 => false | i + 1 => (text[i]?).any digit)) = true := by
      unfold NumberStarts
      rw [hdig _ _ hc, Bool.and_eq_true, Bool.not_eq_true']
      refine and_congr_right fun _ => ?_
      cases hl : (readOf a).length with
      | zero => exact ⟨fun _ => rfl, fun _ q hq => by omega⟩
      | succ i =>
        have hi : i < text.length := by
          have := (List.getElem?_eq_some_iff.1 hc).1
          omega
        have hi := List.getElem?_eq_getElem hi
        simp only [hi, Option.any_some]
        rw [← Bool.not_eq_true, ← hdig _ _ hi]
        constructor
        · intro hq
          exact hq i rfl
        · intro hq q e
          obtain rfl : q = i := by omega
          exact hq
    obtain ⟨s1, s2⟩ := letter_all_signs hm h cs.lower text hps (readOf a).length
    rw [hsh]
    unfold wroteAt
    by_cases hs : NumberStarts (TableCtx.compile sys.alpha rules) rules text (readOf a).length
    · rw [s1 hs, if_pos (hst.1 hs), hup]
    · rw [s2 hs, if_neg fun h' => hs (hst.2 h'), hup]
      rfl
  · rw [(letter_all_signs hm h cs.lower text hps _).2, hread, if_neg]
    · rw [upperAt_iff]
      rintro ⟨c, e, -⟩
      simp at e
    · rintro ⟨⟨c, e, -⟩, -⟩
      rw [hread] at e
      simp at e

/-- Without a sign for numbers there are no digits. -/
theorem letter_no_digits (h : LetterByLetter sign none rules) (c : Char) : ¬ ∃ r ∈ rules, r.rule.IsDigit c := by
  rintro ⟨r, hr, cells, cons, e⟩
  obtain ⟨k, cells', cons', e', hk, -⟩ := letter_defines h hr (c := c) (dots := cells.toText) (by rw [e]; exact .inl ⟨_, _, _, rfl, rfl⟩)
  rw [e] at e'
  cases e'
  exact hk rfl rfl

theorem spelledOut_plain (sign : Char) (upper : Char → Bool) (code : Char → Text) (after : Bool) (text : Text) :
    spelledOut sign none upper (fun _ => false) code after text = text.flatMap fun c => (if upper c then [sign] else []) ++ code c := by
  induction text generalizing after with
  | nil => rfl
  | cons c text ih =>
    rw [spelledOut, ih, List.flatMap_cons]
    simp

/-- **C85**, main stage, forward: character by character, with the sign before every upper-case letter. -/
theorem C85_main_forward (hm : MainStage sys (TableCtx.compile sys.alpha rules) .forward rules p) (h : LetterByLetter sign none rules)
    (cs : Case) (text : Text) (code : Char → Text) (hcode : ∀ c ∈ text, Spelt rules c (code c)) (upper : Char → Bool)
    (hupper : ∀ c ∈ text, upper c = true ↔ ∃ r ∈ rules, r.rule.Raises c) (ts : List Resolved) (ht : p.Traces cs text [] ts) :
    outputOf ts = text.flatMap fun c => (if upper c then [sign] else []) ++ code c := by
  rw [C86_main_forward hm h cs text code hcode upper hupper (fun _ => false)
    (fun c _ => ⟨fun h => (by cases h), fun hd => absurd hd (letter_no_digits h c)⟩) ts ht, spelledOut_plain]

/-- The flags say nothing that stops characters, in a text without digits. -/
theorem letter_flags (h : LetterByLetter sign num rules) {flags : Constraints} {text : Text}
    (hno : ∀ c ∈ text, ¬ ∃ r ∈ rules, r.rule.IsDigit c)
    (hf : FlagsOf sys (TableCtx.compile sys.alpha rules) d rules [] text flags) (pos : Nat) :
    flags.useComp6 pos = false ∧ flags.dontContract pos = false := by
  constructor
  · cases e : flags.useComp6 pos with
    | false => rfl
    | true =>
      obtain ⟨-, ⟨s, hs, -⟩ | ⟨r, hr, trigger, cons, e, -⟩⟩ := (hf.computer pos).1 e
      · cases hs
      · exact absurd e ((letter_kinds h r hr).2.2.2.2.2.2.2.1 _ _)
  · cases e : flags.dontContract pos with
    | false => rfl
    | true =>
      exfalso
      obtain ⟨-, i, -, ⟨c, hi, hc⟩, -⟩ := (hf.number pos).1 e
      have hc : c ∈ (TableCtx.compile sys.alpha rules).classes.members .litdigit := hc
      exact hno c (List.mem_of_getElem? hi) ((letter_digit (sys := sys) c).1 hc)

/-- In a text without capitals and digits there are no signs. -/
theorem letter_no_signs (hm : MainStage sys (TableCtx.compile sys.alpha rules) d rules p) (h : LetterByLetter sign num rules)
    (lower : Char → List Char) (text : Text) (hno : ∀ c ∈ text, ¬ ∃ r ∈ rules, r.rule.IsDigit c)
    (hno' : ∀ c ∈ text, ¬ ∃ r ∈ rules, r.rule.Raises c)
    {ps : List (Nat × Resolved)} (hp : p.indicators.pairs lower text [] = .ok ps) (pos : Nat) : outputOf (atPos pos ps) = [] := by
  rw [(letter_all_signs hm h lower text hp pos).2, if_neg]
  · rw [upperAt_iff]
    rintro ⟨c, e, hc⟩
    exact hno' c (List.mem_of_getElem? e) ((letter_upper (sys := sys) h c).1 hc)
  · rintro ⟨⟨c, e, hc⟩, -⟩
    have hc : c ∈ (TableCtx.compile sys.alpha rules).classes.members .litdigit := hc
    exact hno c (List.mem_of_getElem? e) ((letter_digit (sys := sys) c).1 hc)

theorem allowedRules_all {rules : List Anchored} {d : Direction} (h : ∀ r ∈ rules, ∀ d, r.rule.AllowedIn d) :
    allowedRules rules d = rules := by
  unfold allowedRules
  exact List.filter_eq_self.2 fun r hr => (isDirection_iff _ _).2 (h r hr d)

theorem letter_steps {steps : List Transform} {d : Direction} (hl : LetterByLetter sign num rules)
    (h : Pipeline.Compiles sys rules d steps) :
    ∃ p, steps = [.primary p] ∧ MainStage sys (TableCtx.compile sys.alpha rules) d rules p := by
  obtain ⟨correct, p, pass2, pass3, pass4, e, hp, g1, g2, g3, g4⟩ := C11_stages sys rules d steps h
  rw [allowedRules_all hl.allowed] at hp
  have no : ∀ k, ∀ r ∈ rules, r.rule.AllowedIn d → ∀ test action cons, r.rule ≠ .pass k test action cons := by
    intro k r hr _ test action cons e
    rcases hl.lines r hr with ⟨hq, -⟩ | ⟨_, _, _, _, h, -⟩ | ⟨_, _, h⟩ | ⟨_, _, h, -⟩ | ⟨_, _, -, h, -⟩
    · rw [e] at hq; cases hq
    all_goals rw [e] at h; cases h
  rw [g1.absent (no _), g2.absent (no _), g3.absent (no _), g4.absent (no _)] at e
  refine ⟨p, ?_, hp⟩
  rw [e]
  cases d <;> rfl

/-- **C86**, forward: the translation of a text with a table for uncontracted braille is the braille of its characters one after
the other, with the sign for capitals before every upper-case letter, and that for numbers before the first digit of every number. -/
theorem C86_written (sys : Sys) (rules : List Anchored) (sign : Char) (num : Option Char) (hl : LetterByLetter sign num rules)
    (steps : List Transform) (hf : Pipeline.Compiles sys rules .forward steps) (cs : Case) (text : Text) (code : Char → Text)
    (hcode : ∀ c ∈ text, Spelt rules c (code c)) (upper : Char → Bool)
    (hupper : ∀ c ∈ text, upper c = true ↔ ∃ r ∈ rules, r.rule.Raises c) (digit : Char → Bool)
    (hdigit : ∀ c ∈ text, digit c = true ↔ ∃ r ∈ rules, r.rule.IsDigit c) (braille : Text)
    (h : Pipeline.Translates cs [] text steps braille) :
    braille = spelledOut sign num upper digit code false text := by
  obtain ⟨p, rfl, hp⟩ := letter_steps hl hf
  obtain ⟨mid, ⟨ts, ht, rfl⟩, rfl⟩ := h
  exact C86_main_forward hp hl cs text code hcode upper hupper digit hdigit ts ht

/-- **C85**, forward: the translation of a text with a table for uncontracted braille is the braille of its characters one after
the other, with the sign before every upper-case letter. -/
theorem C85_written (sys : Sys) (rules : List Anchored) (sign : Char) (hl : LetterByLetter sign none rules) (steps : List Transform)
    (hf : Pipeline.Compiles sys rules .forward steps) (cs : Case) (text : Text) (code : Char → Text)
    (hcode : ∀ c ∈ text, Spelt rules c (code c)) (upper : Char → Bool)
    (hupper : ∀ c ∈ text, upper c = true ↔ ∃ r ∈ rules, r.rule.Raises c) (braille : Text)
    (h : Pipeline.Translates cs [] text steps braille) :
    braille = text.flatMap fun c => (if upper c then [sign] else []) ++ code c := by
  obtain ⟨p, rfl, hp⟩ := letter_steps hl hf
  obtain ⟨mid, ⟨ts, ht, rfl⟩, rfl⟩ := h
  exact C85_main_forward hp hl cs text code hcode upper hupper ts ht

end Louis
