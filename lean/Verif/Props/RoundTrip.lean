import Verif.Spec.RoundTrip
import Verif.Props.MainTables
import Verif.Props.ExplainedMain
import Verif.Props.Longest
import Verif.Props.Classes
import Verif.Lemmas.DecEq
import Verif.Lemmas.Compiles

/-!
# C74: what an unambiguous table writes can be read back
-/

namespace Louis

/-- Case without capitals. -/
def Case.small (cs : Case) : Case := { cs with upperStr := id, upperChar := fun c => [c] }

theorem capitalise_plain (t : PrimaryTable) (cs : Case) {cons : Constraints} (pos : Nat) (r : Resolved)
    (h1 : cons.uppercase pos = false) (h2 : cons.titlecase pos = false) : capitalise t cs cons pos r = r := by
  simp [capitalise, h1, h2]

theorem pStep_small (t : PrimaryTable) (cs : Case) {cons : Constraints} (ind : Nat → List Resolved) (input : Text) (s : PState)
    (h1 : ∀ pos, cons.uppercase pos = false) (h2 : ∀ pos, cons.titlecase pos = false) :
    pStep t cs.small cons ind input s = pStep t cs cons ind input s := by
  have e : ∀ cs' pos r, capitalise t cs' cons pos r = r := fun cs' pos r => capitalise_plain t cs' pos r (h1 pos) (h2 pos)
  unfold pStep
  simp only [e]
  rfl

theorem pLoop_small (t : PrimaryTable) (cs : Case) {cons : Constraints} (ind : Nat → List Resolved) (input : Text)
    (h1 : ∀ pos, cons.uppercase pos = false) (h2 : ∀ pos, cons.titlecase pos = false) :
    ∀ fuel s, pLoop t cs.small cons ind input fuel s = pLoop t cs cons ind input fuel s
  | 0, _ => rfl
  | fuel + 1, s => by
    simp only [pLoop, pStep_small t cs ind input s h1 h2]
    split
    · rfl
    · rfl
    · exact pLoop_small t cs ind input h1 h2 fuel _

theorem maybeCapital_small {cs : Case} {d : Direction} {written out : Text} (h : MaybeCapital cs.small d written out) :
    out = written := by
  rcases h with h | ⟨-, h | h⟩
  · exact h
  · exact h
  · rw [h]; cases written <;> rfl

variable {sys : Sys} {ctx : TableCtx} {d : Direction} {rules : List Anchored} {p : Primary}

/-- A table of lines that replace text or nothing. -/
def PlainLines (rules : List Anchored) : Prop := ∀ r ∈ rules, r.rule.Quiet = true ∨ ∃ chars dots, r.rule.Code chars dots

theorem quiet_or_code {r : Rule} (h : r.Quiet = true ∨ ∃ chars dots, r.Code chars dots) :
    r.sign? = none ∧ r.backSign? = none ∧ r.IsPattern = false ∧ r.IsPunct = false ∧ (∀ t cons, r ≠ .compbrl t cons) ∧
    (∀ k test action cons, r ≠ .pass k test action cons) ∧ (∀ a b c e f, r ≠ .matchRule a b c e f) := by
  rcases h with h | ⟨chars, dots, h⟩
  · cases r
    case compbrl => cases h
    all_goals first | exact ⟨rfl, rfl, rfl, rfl, by simp, by simp, by simp⟩ | cases h
  · cases h <;> exact ⟨rfl, rfl, rfl, rfl, by simp, by simp, by simp⟩

theorem says_code {cl : CharClasses} {defs : CharDefs} {before after : Option Char} {r : Rule} {chars dots : Text}
    (h : r.Quiet = true ∨ ∃ chars dots, r.Code chars dots) (hs : r.Says cl defs before after chars dots) : r.Code chars dots := by
  rcases h with h | ⟨chars', dots', h⟩
  · cases hs <;> cases h
  · cases h
    case char => cases hs; exact .char
    case decpoint => cases hs; exact .decpoint
    case text => cases hs with | text h _ => cases h; exact .text
    case syllable => cases hs with | syllable h => cases h; exact .syllable
    case largesign => cases hs; exact .largesign
    case joinword => cases hs; exact .joinword
    case lowword => cases hs; exact .lowword
    case begnum => cases hs; exact .begnum
    case midnum => cases hs; exact .midnum
    case endnum => cases hs with | endnum h _ => cases h; exact .endnum

theorem everywhere_says {cl : CharClasses} {defs : CharDefs} {before after : Option Char} {r : Rule} {chars dots : Text}
    (h : r.Code chars dots) (he : r.Everywhere) : r.Says cl defs before after chars dots ∧ r.withs = [] ∧ r.IsText .backward := by
  cases h <;> cases he
  · exact ⟨.charDef, rfl, rfl⟩
  · exact ⟨.decpoint, rfl, rfl⟩
  · exact ⟨.text (.explicit _) trivial, rfl, trivial⟩
  · exact ⟨.syllable (.explicit _), rfl, trivial⟩
  · exact ⟨.largesign, rfl, trivial⟩

/-- Forward: every item is what a line says. -/
theorem forward_codes (h : MainStage sys ctx .forward rules p) (hl : PlainLines rules) (cs : Case) (text : Text) (spans : List Span)
    (ts : List Resolved) (ht : p.Traces cs text spans ts)
    (hdef : ∀ c ∈ text, ∃ r ∈ rules, ∃ dots, r.rule.Defines c dots) :
    ∀ t ∈ ts, ∃ r ∈ rules, r.rule.Code t.input t.output := by
  intro t htm
  obtain ⟨done, rest, e⟩ := List.append_of_mem htm
  have hex := C56_main_stage_explained sys ctx .forward rules p h cs text spans ts ht done t rest e
  cases hex with
  | sign r dots hr hs => rw [(quiet_or_code (hl r hr)).1] at hs; cases hs
  | rule r chars dots written consumed tail hr ho _ _ hsay _ hdir hcap =>
    refine ⟨r, hr, ?_⟩
    have := says_code (hl r hr) hsay
    obtain ⟨h1, h2⟩ := hdir
    rcases hcap with hcap | ⟨hcap, -⟩
    · rw [h1, hcap, h2]; exact this
    · cases hcap
  | backSign r dots _ _ hd => cases hd
  | matched r pre chars post b cons dots hr _ he => exact absurd he ((quiet_or_code (hl r hr)).2.2.2.2.2.2 _ _ _ _ _)
  | context r test action cons hr _ he => exact absurd he ((quiet_or_code (hl r hr)).2.2.2.2.2.1 _ _ _ _)
  | undefined c tail _ hdrop _ hno =>
    have hc : c ∈ text := List.mem_of_mem_drop (by rw [hdrop]; exact List.mem_cons_self ..)
    obtain ⟨r, hr, dots, hd⟩ := hdef c hc
    exact absurd hd ((hno rfl r hr).1 dots)

theorem backDots_none (f : Rule → Option Cells) (L : List Text) (h : ∀ r ∈ rules, f r.rule = none) : backDots f L rules = none := by
  unfold backDots latest
  rw [List.getLast?_eq_none_iff, List.filterMap_eq_nil_iff]
  intro r hr
  rw [h r hr]

/-- In backward direction nothing is capitalised. -/
theorem traces_small (h : MainStage sys ctx .backward rules p) (hl : PlainLines rules) (cs : Case) (text : Text) (spans : List Span)
    (ts : List Resolved) (ht : p.Traces cs text spans ts) : p.Traces cs.small text spans ts := by
  obtain ⟨en, cons, ind, h1, h2, h3, fuel, h4⟩ := ht
  have hf := flags_backward h h2
  have c1 : (backCaps sys ctx rules).capsletter = none := by
    refine backDots_none (fun | .capsletter dots _ => some dots | _ => none) _ fun r hr => ?_
    have := (quiet_or_code (hl r hr)).1
    split <;> first | rfl | (next e => rw [e] at this; cases this)
  have c2 : (backCaps sys ctx rules).begcapsword = none := by
    refine backDots_none (fun | .begcapsword dots _ => some dots | _ => none) _ fun r hr => ?_
    have := (quiet_or_code (hl r hr)).1
    split <;> first | rfl | (next e => rw [e] at this; cases this)
  refine ⟨en, cons, ind, h1, h2, h3, fuel, ?_⟩
  rw [pLoop_small]
  · exact h4
  · intro pos
    cases e : cons.uppercase pos with
    | false => rfl
    | true =>
      obtain ⟨ts, hr, x, ls, closed, y, rfl, -⟩ := (hf pos).1.1 e
      exact absurd (by simp) ((backCaps_unused _ c1 c2 hr).1 ls closed)
  · intro pos
    cases e : cons.titlecase pos with
    | false => rfl
    | true =>
      obtain ⟨-, ts, hr, x, y, rfl, -⟩ := (hf pos).2.1.1 e
      exact absurd (by simp) (backCaps_unused _ c1 c2 hr).2

theorem no_digit_cell (hl : PlainLines rules) (text : Text) (pos : Nat) : ¬ DigitCell (backNumbers sys ctx rules) text pos := by
  rintro ⟨ts, hr, x, c, y, rfl, -⟩
  have c1 : (backNumbers sys ctx rules).numsign = none := by
    refine backDots_none (fun | .numsign dots => some dots | _ => none) _ fun r hr => ?_
    have := (quiet_or_code (hl r hr)).1
    split <;> first | rfl | (next e => rw [e] at this; cases this)
  obtain ⟨-, ⟨a, b, rfl, -⟩, -⟩ := hr.right x _ y rfl
  obtain ⟨s, hs, -⟩ := hr.right a .sign (b ++ .digit c :: y) (by simp)
  rw [c1] at hs
  cases hs

theorem Spells.fixed {lower : Char → List Char} {x w : Text} (h : Spells lower x w) (hx : ∀ c ∈ x, lower c = [c]) : x = w := by
  induction h with
  | nil => rfl
  | cons hc _ ih =>
    have := hx _ (List.mem_cons_self ..)
    rw [hc] at this
    injection this with this
    rw [this, ih fun c hc => hx c (List.mem_cons_of_mem _ hc)]

/-- Backward: where the text begins with the braille of a line that is used everywhere, that line's characters are written. -/
theorem backward_item (h : MainStage sys ctx .backward rules p) (hl : PlainLines rules)
    (hlit : ∀ c, ctx.classes.has .litdigit c = false)
    (hun : ∀ r ∈ rules, ∀ r' ∈ rules, ∀ chars dots chars' dots', r.rule.Code chars dots → r'.rule.Code chars' dots' →
      dots <+: dots' → dots = dots' ∧ chars = chars')
    (cs : Case) (text : Text) (hlow : ∀ c ∈ text, cs.lower c = [c])
    (ts : List Resolved) (ht : p.Traces cs text [] ts) (done : List Resolved) (t : Resolved) (rest : List Resolved)
    (e : ts = done ++ t :: rest) (q : Anchored) (hq : q ∈ rules) (chars dots tail : Text) (hc : q.rule.Code chars dots)
    (he : q.rule.Everywhere) (hdrop : text.drop (coveredBy done) = dots ++ tail) : t.input = dots ∧ t.output = chars := by
  have hsub : ∀ c ∈ dots ++ tail, cs.lower c = [c] := fun c hc => hlow c (List.mem_of_mem_drop (by rw [hdrop]; exact hc))
  obtain ⟨hsay, hwith, htext⟩ := everywhere_says (cl := ctx.neighbours .backward) (defs := ctx.defs)
    (before := (done.flatMap (·.input)).getLast?) (after := tail.head?) hc he
  have hfit : q.rule.Fits ctx .backward cs (done.flatMap (·.input)).getLast? (text.drop (coveredBy done)) dots :=
    ⟨chars, dots, chars, dots, tail, hdrop, spells_self fun c hc => hsub c (by simp [hc]), ⟨rfl, rfl⟩, hsay, by
      rw [hwith]; intro w hw; cases hw⟩
  have hnum : ¬ InNumberOf ctx rules text (coveredBy done) := by
    rintro ⟨-, i, -, ⟨c, -, hc⟩, -⟩
    have hc : c ∈ ctx.classes.members .litdigit := hc
    rw [mem_members, hlit c] at hc
    cases hc
  have hcomp : ¬ InComputerBraille ctx rules [] text (coveredBy done) := by
    rintro ⟨-, ⟨s, hs, -⟩ | ⟨r, hr, trigger, cons, he, -⟩⟩
    · cases hs
    · exact (quiet_or_code (hl r hr)).2.2.2.2.1 _ _ he
  have hu : Usable sys ctx .backward rules [] text (coveredBy done) q.rule dots.length := by
    unfold Usable
    split
    · intro hd; cases hd
    · exact ⟨hcomp, fun hn => absurd hn hnum, fun _ _ => no_digit_cell hl text _⟩
  have hor : ∃ r' ∈ rules, t.origin = some r'.origin := by
    rcases C69_no_longer_line h ht e q hq htext dots hfit hu
      (fun r' hr' hp => by rw [(quiet_or_code (hl r' hr')).2.2.2.1] at hp; cases hp) with ⟨r', hr', cells, hs, -⟩ | ⟨r', hr', ho, -⟩
    · rw [(quiet_or_code (hl r' hr')).1] at hs; cases hs
    · exact ⟨r', hr', ho⟩
  have hex := C56_main_stage_explained sys ctx .backward rules p h cs.small text [] ts (traces_small h hl cs text [] ts ht) done t rest e
  cases hex with
  | sign r cells hr hs => rw [(quiet_or_code (hl r hr)).1] at hs; cases hs
  | rule r chars' dots' written consumed tail' hr ho hd' hcons hsay' _ hdir hcap =>
    have hcode := says_code (hl r hr) hsay'
    obtain ⟨h1, h2⟩ := hdir
    have hout := maybeCapital_small hcap
    have hpre : consumed = dots' := by
      rw [← h1]
      rcases hcons with hcons | hcons
      · exact hcons
      · exact hcons.fixed fun c hc => hsub c (by rw [← hdrop, hd']; exact List.mem_append_left _ hc)
    rw [hdrop, hpre] at hd'
    have : dots' = dots ∧ chars' = chars := by
      rcases List.append_eq_append_iff.1 hd' with ⟨m, hm, -⟩ | ⟨m, hm, -⟩
      · have := hun q hq r hr _ _ _ _ hc hcode ⟨m, hm.symm⟩
        exact ⟨this.1.symm, this.2.symm⟩
      · exact hun r hr q hq _ _ _ _ hcode hc ⟨m, hm.symm⟩
    rw [h1, hout, h2]
    exact this
  | backSign r cells _ _ _ hr hs => rw [(quiet_or_code (hl r hr)).2.1] at hs; cases hs
  | matched r pre chars post b cons dots hr _ he => exact absurd he ((quiet_or_code (hl r hr)).2.2.2.2.2.2 _ _ _ _ _)
  | context r test action cons hr _ he => exact absurd he ((quiet_or_code (hl r hr)).2.2.2.2.2.1 _ _ _ _)
  | undefined c tail' ho =>
    obtain ⟨r', -, ho'⟩ := hor
    rw [ho] at ho'
    cases ho'

/-- Reading back the pieces one after the other. -/
theorem backward_items (h : MainStage sys ctx .backward rules p) (hl : PlainLines rules)
    (hlit : ∀ c, ctx.classes.has .litdigit c = false)
    (hun : ∀ r ∈ rules, ∀ r' ∈ rules, ∀ chars dots chars' dots', r.rule.Code chars dots → r'.rule.Code chars' dots' →
      dots <+: dots' → dots = dots' ∧ chars = chars')
    (cs : Case) (pairs : List (Text × Text))
    (hne : ∀ r ∈ rules, ∀ chars dots, r.rule.Code chars dots → dots ≠ [])
    (hp : ∀ x ∈ pairs, ∃ q ∈ rules, q.rule.Code x.1 x.2 ∧ q.rule.Everywhere)
    (hlow : ∀ c ∈ pairs.flatMap (·.2), cs.lower c = [c])
    (ts : List Resolved) (ht : p.Traces cs (pairs.flatMap (·.2)) [] ts) :
    outputOf ts = pairs.flatMap (·.1) := by
  have hcov : ts.flatMap (·.input) = pairs.flatMap (·.2) := by
    obtain ⟨en, cons, ind, h1, h2, h3, h4⟩ := ht
    exact C10_lowercase_text_exact _ _ _ _ h.built cs cons _ (h.ind_empty h3) _ hlow ts h4
  have key : ∀ (b : List (Text × Text)) (rest : List Resolved) (a : List (Text × Text)) (done : List Resolved), pairs = a ++ b →
      ts = done ++ rest → done.flatMap (·.input) = a.flatMap (·.2) → outputOf done = a.flatMap (·.1) →
      outputOf ts = pairs.flatMap (·.1) := by
    intro b
    induction b with
    | nil =>
      intro rest a done e1 e2 h1 h2
      rw [List.append_nil] at e1
      -- what is left covers nothing: but then it is nothing
      cases rest with
      | nil => rw [List.append_nil] at e2; rw [e2, e1]; exact h2
      | cons t rest =>
        exfalso
        have hex := C56_main_stage_explained sys ctx .backward rules p h cs.small _ [] ts
          (traces_small h hl cs _ [] ts ht) done t rest e2
        have hnil : (pairs.flatMap (·.2)).drop (coveredBy done) = [] := by
          unfold coveredBy
          rw [h1, e1, List.drop_length]
        cases hex with
        | sign r cells hr hs => rw [(quiet_or_code (hl r hr)).1] at hs; cases hs
        | rule r chars' dots' written consumed tail' hr ho hd' hcons hsay' _ hdir hcap =>
          rw [hnil] at hd'
          obtain ⟨rfl, rfl⟩ := List.append_eq_nil_iff.1 hd'.symm
          have : t.input = [] := by
            rcases hcons with hcons | hcons
            · exact hcons.symm
            · generalize t.input = w at hcons
              cases hcons; rfl
          exact hne r hr _ _ (says_code (hl r hr) hsay') (hdir.1 ▸ this)
        | backSign r cells _ _ _ hr hs => rw [(quiet_or_code (hl r hr)).2.1] at hs; cases hs
        | matched r pre chars post b cons dots hr _ he => exact absurd he ((quiet_or_code (hl r hr)).2.2.2.2.2.2 _ _ _ _ _)
        | context r test action cons hr _ he => exact absurd he ((quiet_or_code (hl r hr)).2.2.2.2.2.1 _ _ _ _)
        | undefined c tail' ho hd' => rw [hnil] at hd'; cases hd'
    | cons x b ih =>
      intro rest a done e1 e2 h1 h2
      obtain ⟨q, hq, hc, he⟩ := hp x (by rw [e1]; simp)
      have hdrop : (pairs.flatMap (·.2)).drop (coveredBy done) = x.2 ++ b.flatMap (·.2) := by
        unfold coveredBy
        rw [h1, e1, List.flatMap_append, List.drop_left, List.flatMap_cons]
      cases rest with
      | nil =>
        exfalso
        rw [List.append_nil] at e2
        subst e2
        rw [← hcov] at hdrop
        unfold coveredBy at hdrop
        rw [List.drop_length] at hdrop
        exact hne q hq _ _ hc (List.append_eq_nil_iff.1 hdrop.symm).1
      | cons t rest =>
        obtain ⟨g1, g2⟩ := backward_item h hl hlit hun cs _ hlow ts ht done t rest e2 q hq x.1 x.2 _ hc he hdrop
        refine ih rest (a ++ [x]) (done ++ [t]) (by simp [e1]) (by simp [e2]) ?_ ?_
        · simp [h1, g1]
        · unfold outputOf at h2 ⊢
          simp [h2, g2]
  exact key pairs ts [] [] rfl rfl rfl rfl

theorem plain_steps {steps : List Transform} (hl : PlainLines rules) (h : Pipeline.Compiles sys rules d steps) :
    ∃ p, steps = [.primary p] ∧
      MainStage sys (TableCtx.compile sys.alpha (allowedRules rules d)) d (allowedRules rules d) p := by
  obtain ⟨correct, p, pass2, pass3, pass4, e, hp, g1, g2, g3, g4⟩ := C11_stages sys rules d steps h
  have no : ∀ k, ∀ r ∈ rules, r.rule.AllowedIn d → ∀ test action cons, r.rule ≠ .pass k test action cons :=
    fun k r hr _ => (quiet_or_code (hl r hr)).2.2.2.2.2.1 k
  rw [g1.absent (no _), g2.absent (no _), g3.absent (no _), g4.absent (no _)] at e
  refine ⟨p, ?_, hp⟩
  rw [e]
  cases d <;> rfl

theorem code_cells {r : Rule} {chars dots : Text} (h : r.Code chars dots) : ∀ c ∈ dots, ∃ cell : Cell, c = cell.toUnicode := by
  have key : ∀ (cells : Cells), ∀ c ∈ cells.toText, ∃ cell : Cell, c = cell.toUnicode := by
    intro cells c hc
    unfold Cells.toText at hc
    obtain ⟨cell, -, rfl⟩ := List.mem_map.1 hc
    exact ⟨cell, rfl⟩
  cases h <;> exact key _

theorem no_litdigit (hl : PlainLines rules) (hlit : ∀ r ∈ rules, ∀ c cells cons, r.rule ≠ .charDef .litdigit c cells cons)
    (c : Char) : (TableCtx.compile sys.alpha rules).classes.has .litdigit c = false := by
  cases e : (TableCtx.compile sys.alpha rules).classes.has .litdigit c with
  | false => rfl
  | true =>
    exfalso
    obtain ⟨pre, r, post, er, hp⟩ := (C43_characters sys.alpha rules .litdigit c).1 e
    have hr : r ∈ rules := by rw [er]; simp
    have hn : ∀ name, CharClass.ofName name ≠ .litdigit := by
      intro name
      unfold CharClass.ofName
      repeat' split
      all_goals simp
    generalize hk : CharClass.litdigit = k at hp
    generalize hrr : r.rule = rl at hp
    cases hp with
    | charDef kind c dots cons k h =>
      subst hk
      cases h
      exact hlit r hr _ _ _ hrr
    | base name => exact hn _ hk.symm
    | attr name => exact hn _ hk.symm
    | swapcc name => exact hn _ hk.symm
    | swapcd name => exact hn _ hk.symm
    | swapdd name => exact hn _ hk.symm
    | _ => cases hk

/-- **C74.** What a reversible table writes for a text is read back as that text: with the translators of the table for both
directions, translating the translation of any text whose characters are defined and are their own lowercase yields the text. -/
theorem C74_round_trip (sys : Sys) (rules : List Anchored) (hrev : Reversible rules) (steps steps' : List Transform)
    (hf : Pipeline.Compiles sys rules .forward steps) (hb : Pipeline.Compiles sys rules .backward steps') (cs : Case)
    (hcells : ∀ cell : Cell, cs.lower cell.toUnicode = [cell.toUnicode])
    (text : Text) (hdef : ∀ c ∈ text, ∃ r ∈ rules, r.rule.AllowedIn .forward ∧ ∃ dots, r.rule.Defines c dots)
    (hlow : ∀ c ∈ text, cs.lower c = [c]) (spans : List Span) (braille : Text)
    (h : Pipeline.Translates cs spans text steps braille) (back : Text) (h' : Pipeline.Translates cs [] braille steps' back) :
    back = text := by
  have hl : PlainLines rules := hrev.lines
  have hla : ∀ d, PlainLines (allowedRules rules d) := fun d r hr => hl r (mem_allowed.1 hr).1
  obtain ⟨p, rfl, hp⟩ := plain_steps hl hf
  obtain ⟨p', rfl, hp'⟩ := plain_steps hl hb
  obtain ⟨mid, ⟨ts, ht, rfl⟩, rfl⟩ := h
  obtain ⟨mid', ⟨ts', ht', rfl⟩, rfl⟩ := h'
  have ht : p.Traces cs text spans ts := ht
  have ht' : p'.Traces cs (outputOf ts) [] ts' := ht'
  have hcode := forward_codes hp (hla _) cs text spans ts ht (fun c hc => by
    obtain ⟨r, hr, ha, dots, hd⟩ := hdef c hc
    exact ⟨r, mem_allowed.2 ⟨hr, ha⟩, dots, hd⟩)
  have hcov : ts.flatMap (·.input) = text := by
    obtain ⟨en, cons, ind, h1, h2, h3, h4⟩ := ht
    exact C10_lowercase_text_exact _ _ _ _ hp.built cs cons _ (hp.ind_empty h3) _ hlow ts h4
  have e1 : (ts.map fun t => (t.input, t.output)).flatMap (·.1) = text := by
    rw [List.flatMap_map]; exact hcov
  have e2 : (ts.map fun t => (t.input, t.output)).flatMap (·.2) = outputOf ts := by
    rw [List.flatMap_map]; rfl
  have hpairs : ∀ x ∈ ts.map fun t => (t.input, t.output), ∃ q ∈ allowedRules rules .backward, q.rule.Code x.1 x.2 ∧
      q.rule.Everywhere := by
    intro x hx
    obtain ⟨t, htm, rfl⟩ := List.mem_map.1 hx
    obtain ⟨r, hr, hc⟩ := hcode t htm
    obtain ⟨q, hq, ha, hqc, hqe⟩ := hrev.written r (mem_allowed.1 hr).1 (mem_allowed.1 hr).2 _ _ hc
    exact ⟨q, mem_allowed.2 ⟨hq, ha⟩, hqc, hqe⟩
  have hcell : ∀ c ∈ (ts.map fun t => (t.input, t.output)).flatMap (·.2), cs.lower c = [c] := by
    intro c hc
    obtain ⟨x, hx, hcx⟩ := List.mem_flatMap.1 hc
    obtain ⟨q, -, hq, -⟩ := hpairs x hx
    obtain ⟨cell, rfl⟩ := code_cells hq c hcx
    exact hcells cell
  rw [← e2] at ht'
  rw [← e1]
  exact backward_items hp' (hla _)
    (fun c => no_litdigit (hla _) (fun r hr => hrev.plain r (mem_allowed.1 hr).1 (mem_allowed.1 hr).2) c)
    (fun r hr r' hr' => hrev.unambiguous r (mem_allowed.1 hr).1 (mem_allowed.1 hr).2 r' (mem_allowed.1 hr').1 (mem_allowed.1 hr').2)
    cs _ (fun r hr => hrev.nonempty r (mem_allowed.1 hr).1) hpairs hcell ts' ht'

/-- **C74** for table texts. -/
theorem C74_source (sys : Sys) (cs : Case) (hcells : ∀ cell : Cell, cs.lower cell.toUnicode = [cell.toUnicode])
    (table : Text) (rules : List (Rule × Loc)) (hp : parseTable table none = .ok rules) (hrev : Reversible (anchor rules))
    (text : Text) (hdef : ∀ c ∈ text, ∃ r ∈ anchor rules, r.rule.AllowedIn .forward ∧ ∃ dots, r.rule.Defines c dots)
    (hlow : ∀ c ∈ text, cs.lower c = [c]) (spans : List Span) (braille back : Text)
    (h : SourceTranslates sys cs table .forward spans text braille)
    (h' : SourceTranslates sys cs table .backward [] braille back) : back = text := by
  have key : ∀ {d steps}, translatorFromSource sys table d = .ok steps → Pipeline.Compiles sys (anchor rules) d steps := by
    intro d steps h
    unfold translatorFromSource at h
    rw [hp] at h
    simp only [fromTableSource] at h
    split at h
    · cases h
    · split at h
      · cases h
      · next e => cases h; exact compile_compiles e
  obtain ⟨steps, e, ht⟩ := h
  obtain ⟨steps', e', ht'⟩ := h'
  exact C74_round_trip sys _ hrev steps steps' (key e) (key e') cs hcells text hdef hlow spans braille ht back ht'

/-! ## An example -/

/-- The braille of a line. -/
def Rule.code? : Rule → Option (Text × Text)
  | .charDef _ c cells _ | .decpoint c cells => some ([c], cells.toText)
  | .text _ chars (.explicit cells) _ _ | .syllable chars (.explicit cells) | .largesign chars cells | .joinword chars cells
  | .lowword chars cells _ | .begnum chars cells _ | .midnum chars cells _ | .endnum chars (.explicit cells) _ =>
    some (chars, cells.toText)
  | _ => none

theorem code?_iff {r : Rule} {chars dots : Text} : r.Code chars dots ↔ r.code? = some (chars, dots) := by
  constructor
  · intro h; cases h <;> rfl
  · intro h
    unfold Rule.code? at h
    split at h <;> first | (cases h; done) | (injection h with h; injection h with h1 h2; subst h1 h2; constructor)

def Rule.everywhere : Rule → Bool
  | .charDef _ _ _ _ | .decpoint _ _ | .text .always _ _ _ [] | .syllable _ _ | .largesign _ _ => true
  | _ => false

theorem everywhere_iff {r : Rule} (h : r.everywhere = true) : r.Everywhere := by
  unfold Rule.everywhere at h
  split at h <;> first | constructor | cases h

/-- Is a table reversible? -/
def checkReversible (rules : List Anchored) : Bool :=
  let back := (rules.filter (·.rule.isDirection .backward)).filterMap (·.rule.code?)
  rules.all (fun r => r.rule.Quiet || r.rule.code?.any (·.2 != [])) &&
  rules.all (fun r => !r.rule.isDirection .forward || r.rule.code?.all fun x => rules.any fun q =>
    q.rule.isDirection .backward && q.rule.code? == some x && q.rule.everywhere) &&
  back.all (fun x => back.all fun y => !x.2.isPrefixOf y.2 || x == y) &&
  rules.all (fun r => match r.rule with | .charDef .litdigit _ _ _ => !r.rule.isDirection .backward | _ => true)

theorem quiet_code {r : Rule} (h : r.Quiet = true) : r.code? = none := by
  cases r <;> first | rfl | cases h

theorem checkReversible_sound {rules : List Anchored} (h : checkReversible rules = true) : Reversible rules := by
  simp only [checkReversible, Bool.and_eq_true, List.all_eq_true] at h
  obtain ⟨⟨⟨h1, h2⟩, h3⟩, h4⟩ := h
  have mem : ∀ r ∈ rules, r.rule.AllowedIn .backward → ∀ x, r.rule.code? = some x →
      x ∈ (rules.filter (·.rule.isDirection .backward)).filterMap (·.rule.code?) := by
    intro r hr ha x hx
    exact List.mem_filterMap.2 ⟨r, List.mem_filter.2 ⟨hr, (isDirection_iff _ _).2 ha⟩, hx⟩
  refine ⟨?_, ?_, ?_, ?_, ?_⟩
  · intro r hr
    have := h1 r hr
    rw [Bool.or_eq_true] at this
    rcases this with this | this
    · exact .inl this
    · obtain ⟨x, hx, -⟩ := (Option.any_eq_true ..).1 this
      exact .inr ⟨x.1, x.2, code?_iff.2 hx⟩
  · intro r hr ha chars dots hc
    have := h2 r hr
    rw [(isDirection_iff _ _).2 ha, code?_iff.1 hc] at this
    simp only [Bool.not_true, Bool.false_or, Option.all_some, List.any_eq_true, Bool.and_eq_true, beq_iff_eq] at this
    obtain ⟨q, hq, ⟨hqa, hqc⟩, hqe⟩ := this
    exact ⟨q, hq, (isDirection_iff _ _).1 hqa, code?_iff.2 hqc, everywhere_iff hqe⟩
  · intro r hr chars dots hc
    have := h1 r hr
    rw [code?_iff] at hc
    rw [Bool.or_eq_true] at this
    rcases this with this | this
    · rw [quiet_code this] at hc; cases hc
    · rw [hc] at this; simpa using this
  · intro r hr ha r' hr' ha' chars dots chars' dots' hc hc' hp
    have := h3 _ (mem r hr ha _ (code?_iff.1 hc)) _ (mem r' hr' ha' _ (code?_iff.1 hc'))
    rw [Bool.or_eq_true, Bool.not_eq_true'] at this
    rcases this with this | this
    · rw [← List.isPrefixOf_iff_prefix, this] at hp; cases hp
    · have := eq_of_beq this
      injection this with e1 e2
      exact ⟨e2, e1⟩
  · intro r hr ha c cells cons e
    have := h4 r hr
    rw [e] at this
    simp only [Bool.not_eq_true'] at this
    rw [← e, (isDirection_iff _ _).2 ha] at this
    cases this

/-- Two-cell and one-cell braille, a contraction, one that is written in whole words only, and one that is only read. -/
def roundTable : String :=
  "space \\s 0\nlowercase a 1\nlowercase b 12\nlowercase c 14\nsign % 4-356\npunctuation . 256\nalways ab 345\n" ++
  "noback word abc 4-2\nnofor always abc 4-2\nnofor always cab 4-3\nundefined 4-123456\n"

def roundRules : List Anchored := anchor ((parseTable roundTable.toList none).toOption.getD [])

theorem roundTable_rules : (parseTable roundTable.toList none).toOption.isSome = true := by decide +kernel

theorem roundTable_reversible : Reversible roundRules := checkReversible_sound (by decide +kernel)

/-- Non-vacuity of C74: the table of the example is reversible, and its translators translate a text and read it back. -/
example : SourceTranslates demoSys asciiCase roundTable.toList .forward [] "abc cab. aab %".toList "⠈⠂⠀⠉⠜⠲⠀⠁⠜⠀⠈⠴".toList ∧
    SourceTranslates demoSys asciiCase roundTable.toList .backward [] "⠈⠂⠀⠉⠜⠲⠀⠁⠜⠀⠈⠴".toList "abc cab. aab %".toList :=
  ⟨runSource_sound (fuel := 40) (by decide +kernel), runSource_sound (fuel := 40) (by decide +kernel)⟩

theorem asciiCase_cells (cell : Cell) : asciiCase.lower cell.toUnicode = [cell.toUnicode] := by
  have := C31_range cell
  have h : 0x2800 ≤ cell.code := by
    cases e : cell.any Dot.isVirtual with
    | false => exact (this.1 e).1
    | true => have := (this.2 e).1; omega
  show asciiLower cell.toUnicode = _
  unfold asciiLower
  rw [toNat_toUnicode, if_neg (by omega)]

/-- The theorem applies to the table of the example, and to every text in its characters. -/
example (text braille back : Text) (ht : ∀ c ∈ text, c ∈ " abc%.".toList)
    (h : SourceTranslates demoSys asciiCase roundTable.toList .forward [] text braille)
    (h' : SourceTranslates demoSys asciiCase roundTable.toList .backward [] braille back) : back = text := by
  cases e : parseTable roundTable.toList none with
  | error x => have := roundTable_rules; rw [e] at this; cases this
  | ok rules =>
    have hr : anchor rules = roundRules := by unfold roundRules; rw [e]; rfl
    refine C74_source demoSys asciiCase asciiCase_cells _ rules e (hr ▸ roundTable_reversible) text ?_ ?_ [] braille back h h'
    · have key : " abc%.".toList.all (fun c => roundRules.any fun r => r.rule.isDirection .forward && match r.rule with
          | .charDef _ x _ _ => x == c | _ => false) = true := by decide +kernel
      intro c hc
      have := List.all_eq_true.1 key c (ht c hc)
      obtain ⟨r, hr', hx⟩ := List.any_eq_true.1 this
      rw [hr]
      refine ⟨r, hr', (isDirection_iff _ _).1 (Bool.and_eq_true .. ▸ hx).1, ?_⟩
      have hx := (Bool.and_eq_true .. ▸ hx).2
      split at hx
      · next k x cells cons er => exact ⟨_, .inl ⟨k, cells, cons, by rw [er, eq_of_beq hx], rfl⟩⟩
      · cases hx
    · have key : " abc%.".toList.all (fun c => asciiCase.lower c == [c]) = true := by decide +kernel
      exact fun c hc => eq_of_beq (List.all_eq_true.1 key c (ht c hc))

end Louis
