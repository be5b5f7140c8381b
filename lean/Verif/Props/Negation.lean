import Verif.Props.MatchGrammar
import Verif.Props.Regexp
import Verif.Lemmas.MatchPattern

/-!
# C36 (increment and decrement actions) and C37 (negated patterns)
-/

namespace Louis

open Regexp (Regexp Matches Eats St)

/-! ## C36 -/

/-- C36 does not hold: `#n+` and `#n-` are rejected, for every variable and whatever follows and precedes. -/
theorem C36_increment_rejected_wrong (ds before after : Text) (v : Nat) (h : NumberSrc ds v) (as : List ActionInstr)
    (hb : ActionsSrc before as) (c : Char) (hc : c = '+' ∨ c = '-') :
    parseAction (before ++ ('#' :: ds ++ c :: after)) = .error .reject := by
  rcases (C55_operand_parsers_total (before ++ ('#' :: ds ++ c :: after))).2.1 with h' | ⟨as', h'⟩
  · exact h'
  · exfalso
    -- the loop stops at the sign
    have key : ∀ (b : Text) (as : List ActionInstr), ActionsSrc b as → ∀ n r, opActions n (b ++ ('#' :: ds ++ c :: after)) = .ok r →
        r.2 ≠ [] := by
      intro b as hb
      induction hb with
      | nil =>
        intro n r hr
        cases n with
        | zero => rw [opActions] at hr; cases hr
        | succ n =>
          rw [List.nil_append, List.cons_append, opActions, if_pos (by decide)] at hr
          have hn := asciiNumber_complete (r := c :: after) h
            (by intro d hd; simp at hd; subst hd; rcases hc with rfl | rfl <;> decide)
          have hv : opAction ('#' :: (ds ++ c :: after)) =
              some (if c = '+' then .increment v else .decrement v, c :: after) := by
            rw [opAction, opActionVar, hn]
            rcases hc with rfl | rfl <;> rfl
          rw [hv] at hr
          simp only at hr
          cases n with
          | zero => rw [opActions] at hr; cases hr
          | succ n =>
            rw [opActions, if_neg (by rcases hc with rfl | rfl <;> decide)] at hr
            cases hr
            simp
      | cons src rest a as ha hmore ih =>
        intro n r hr
        have hf : Follows (rest ++ ('#' :: ds ++ c :: after)) := by
          intro d hd
          cases rest with
          | nil => simp at hd; subst hd; exact .inl (by decide)
          | cons e rest => exact hmore.follows d (by simpa using hd)
        have h1 := opAction_complete ha hf
        obtain ⟨d, es, rfl, hd⟩ := ha.head
        cases n with
        | zero => rw [opActions] at hr; cases hr
        | succ n =>
          rw [List.append_assoc, List.cons_append] at hr
          rw [List.cons_append] at h1
          rw [opActions, if_pos hd, h1] at hr
          simp only at hr
          split at hr
          · cases hr
          · rename_i as'' r' heq
            cases hr
            exact ih n (as'', r') heq
    rw [parseAction] at h'
    split at h'
    · cases h'
    · cases h'
    · rename_i as'' _ heq
      exact key before as hb _ _ heq rfl
    · cases h'

example : parseAction "#1+".toList = .error .reject ∧ parseAction "#1=5".toList = .ok [.assignment 1 5] := by decide +kernel

/-- C36, what holds instead: the only change of a variable an accepted action can make is an assignment. -/
theorem C36_only_assignments_partial (s : Text) (as : List ActionInstr) (h : parseAction s = .ok as) :
    ∀ v, .increment v ∉ as ∧ .decrement v ∉ as := by
  have hsrc := ((C55_action_grammar s as).mp h).1
  clear h
  intro v
  induction hsrc with
  | nil => simp
  | cons src rest a as ha _ ih =>
    cases ha <;> simp [ih]

/-! ## C37: which patterns can be compiled -/

/-- The pattern reads characters by itself: text, a set, or attributes. -/
def Pattern.reads : Pattern → Bool
  | .characters _ | .set _ | .attributes _ | .attributesOrBoundary _ _ => true
  | _ => false

mutual
/-- Some part that reads characters is inside at least `n` negations. -/
def Pattern.readsUnder (n : Nat) : Pattern → Bool
  | .negate p => p.readsUnder (n - 1)
  | .group ps => Pattern.anyReadsUnder n ps
  | .optional p | .zeroOrMore p | .oneOrMore p => p.readsUnder n
  | .either l r => Pattern.anyReadsUnder n l || Pattern.anyReadsUnder n r
  | p => n == 0 && p.reads
def Pattern.anyReadsUnder (n : Nat) : List Pattern → Bool
  | [] => false
  | p :: ps => p.readsUnder n || Pattern.anyReadsUnder n ps
end

/-- What the parser accepts: classes only, and no empty groups. -/
inductive Attr.IsClass : Attr → Prop
  | cls (k : CharClass) : Attr.IsClass (.cls k)

mutual
/-- Attributes are classes; groups and alternatives are not empty. -/
def Pattern.Proper : Pattern → Prop
  | .attributes as | .attributesOrBoundary as _ => ∀ a ∈ as, a.IsClass
  | .group ps => ps ≠ [] ∧ Pattern.AllProper ps
  | .negate p | .optional p | .zeroOrMore p | .oneOrMore p => p.Proper
  | .either l r => (l ≠ [] ∧ Pattern.AllProper l) ∧ r ≠ [] ∧ Pattern.AllProper r
  | _ => True
def Pattern.AllProper : List Pattern → Prop
  | [] => True
  | p :: ps => p.Proper ∧ Pattern.AllProper ps
end

theorem matchAttr_class {c : Char} {a : Attr} (h : matchAttr c = some a) : a = .boundary ∨ a.IsClass := by
  rw [matchAttr.eq_def] at h
  repeat' (split at h)
  all_goals first | (cases h; done) | (injection h with h; subst h; first | exact .inr (.cls _) | exact .inl rfl)

theorem attrPattern_proper (side : Side) (as : List Attr) (h : ∀ a ∈ as, a = .boundary ∨ a.IsClass) :
    (attrPattern side as).Proper := by
  have hf : ∀ a ∈ as.filter (· != .boundary), a.IsClass := by
    intro a ha
    rw [List.mem_filter] at ha
    rcases h a ha.1 with rfl | hc
    · simp at ha
    · exact hc
  unfold attrPattern
  split
  · split
    · trivial
    · exact hf
  · rename_i hb
    intro a ha
    rcases h a ha with rfl | hc
    · exact absurd ha hb
    · exact hc

theorem map_some_mem {α β : Type} {f : α → Option β} {as : List α} {bs : List β} (h : as.map f = bs.map some) {b : β}
    (hb : b ∈ bs) : ∃ a ∈ as, f a = some b := by
  have : some b ∈ bs.map some := List.mem_map_of_mem hb
  rw [← h] at this
  obtain ⟨a, ha, he⟩ := List.mem_map.mp this
  exact ⟨a, ha, he⟩

theorem grammar_proper (side : Side) (N : Nat) :
    (∀ src p, src.length ≤ N → InnerSrc side src p → p.Proper) ∧
    (∀ src p, src.length ≤ N → QuantifiedSrc side src p → p.Proper) ∧
    (∀ src ps, src.length ≤ N → SequenceSrc side src ps → Pattern.AllProper ps) ∧
    (∀ src left ps, src.length ≤ N → AlternativesSrc side left src ps → left ≠ [] → Pattern.AllProper left →
      ps ≠ [] ∧ Pattern.AllProper ps) ∧
    (∀ src ps, src.length ≤ N → EitherSrc side src ps → ps ≠ [] ∧ Pattern.AllProper ps) := by
  induction N using Nat.strongRecOn with
  | ind N ih =>
    have hinner : ∀ src p, src.length ≤ N → InnerSrc side src p → p.Proper := by
      intro src p hN h
      cases h with
      | any => trivial
      | boundary => trivial
      | attr c a h =>
        refine attrPattern_proper side _ ?_
        intro b hb; simp at hb; subst hb; exact matchAttr_class h
      | attrs cs as hne h =>
        refine attrPattern_proper side _ ?_
        intro b hb
        rw [mem_distinct] at hb
        obtain ⟨c, _, hc⟩ := map_some_mem h hb
        exact matchAttr_class hc
      | set => trivial
      | characters => trivial
      | group src' ps h =>
        simp only [List.length_append, List.length_cons, List.length_nil] at hN
        exact (ih (N - 1) (by omega)).2.2.2.2 src' ps (by omega) h
      | negate src' p h _ =>
        simp only [List.length_cons] at hN
        exact (ih (N - 1) (by omega)).2.1 src' p (by omega) h
    have hquant : ∀ src p, src.length ≤ N → QuantifiedSrc side src p → p.Proper := by
      intro src p hN h
      cases h with
      | plain _ _ h => exact hinner src p hN h
      | quantified src' p' _ c h hc _ =>
        have := hinner src' p' (by simp only [List.length_append, List.length_cons, List.length_nil] at hN; omega) h
        cases hc <;> exact this
    have hseq : ∀ src ps, src.length ≤ N → SequenceSrc side src ps → Pattern.AllProper ps := by
      intro src ps hN h
      cases h with
      | nil => trivial
      | cons src' rest p ps h more _ =>
        simp only [List.length_append] at hN
        have hpos : 0 < src'.length := by obtain ⟨c, es, rfl, _⟩ := h.head; simp
        exact ⟨hquant src' p (by omega) h, (ih (N - 1) (by omega)).2.2.1 rest ps (by omega) more⟩
    have halt : ∀ src left ps, src.length ≤ N → AlternativesSrc side left src ps → left ≠ [] → Pattern.AllProper left →
        ps ≠ [] ∧ Pattern.AllProper ps := by
      intro src left ps hN h hne hp
      cases h with
      | done => exact ⟨hne, hp⟩
      | alternative _ right _ src' rest h hne' more =>
        simp only [List.length_append, List.length_cons] at hN
        have hr := (ih (N - 1) (by omega)).2.2.1 src' right (by omega) h
        exact (ih (N - 1) (by omega)).2.2.2.1 rest _ ps (by omega) more (by simp) ⟨⟨⟨hne, hp⟩, hne', hr⟩, trivial⟩
    refine ⟨hinner, hquant, hseq, halt, ?_⟩
    intro src ps hN h
    cases h with
    | intro src' rest first _ h hne more =>
      simp only [List.length_append] at hN
      exact halt rest first ps (by omega) more hne (hseq src' first (by omega) h)

/-- The accepted patterns of a nonempty operand are proper, and there is at least one. -/
theorem parseMatch_proper {side : Side} {s : Text} {ps : List Pattern} (h : parseMatch side s = .ok ps) (hs : s ≠ []) :
    ps ≠ [] ∧ Pattern.AllProper ps := by
  cases (C55_match_grammar side s ps).mp h with
  | nothing => exact absurd rfl hs
  | dash => exact ⟨by simp, trivial, trivial⟩
  | pattern _ _ h _ => exact (grammar_proper side s.length).2.2.2.2 s ps (Nat.le_refl _) h

theorem attributes_isSome {ctx : CharClasses} {as : List Attr} (h : ∀ a ∈ as, a.IsClass) :
    (matchAttributes ctx as).isSome = true := by
  induction as with
  | nil => rfl
  | cons a as ih =>
    have ha := h a (by simp)
    cases ha with
    | cls k =>
      rw [matchAttributes, Option.isSome_map]
      exact ih fun b hb => h b (by simp [hb])

theorem boundaryAnchor_negate (side : Side) : (Regexp.negate (boundaryAnchor side)).isSome = true := by
  cases side <;> rfl

/-- Membership of the negation under `Option`. -/
theorem negate_concat (a b : Regexp) :
    (Regexp.negate (.concat a b)).isSome = ((Regexp.negate a).isSome && (Regexp.negate b).isSome) := by
  simp only [Regexp.negate, bind, pure]
  cases Regexp.negate a <;> cases Regexp.negate b <;> rfl

theorem negate_either (a b : Regexp) :
    (Regexp.negate (.either a b)).isSome = ((Regexp.negate a).isSome && (Regexp.negate b).isSome) := by
  simp only [Regexp.negate, bind, pure]
  cases Regexp.negate a <;> cases Regexp.negate b <;> rfl

/-- A negation cannot be negated again, except where it reads no characters. -/
def Regexp.Regexp.fresh : Regexp → Bool
  | .cls _ | .string _ => true
  | .concat l r | .either l r => l.fresh || r.fresh
  | .optional r | .zeroOrMore r | .oneOrMore r | .group r => r.fresh
  | _ => false

/-- Only the constructors that patterns are compiled to. -/
def Regexp.Regexp.plain : Regexp → Bool
  | .cls _ | .string _ | .notCls _ | .notString _ | .any | .never | .empty | .startAnchor | .endAnchor | .notStartAnchor
  | .notEndAnchor => true
  | .concat l r | .either l r => l.plain && r.plain
  | .optional r | .zeroOrMore r | .oneOrMore r | .group r => r.plain
  | _ => false

theorem boundaryAnchor_plain (side : Side) : (boundaryAnchor side).plain = true ∧ (boundaryAnchor side).fresh = false := by
  cases side <;> exact ⟨rfl, rfl⟩

/-- Negating keeps the pattern plain; the result can be negated again exactly if nothing read characters. -/
theorem negate_plain : ∀ (r r' : Regexp), r.plain = true → Regexp.negate r = some r' →
    r'.plain = true ∧ r'.fresh = false ∧ (Regexp.negate r').isSome = !r.fresh := by
  intro r
  induction r with
  | cls cs => intro r' _ h; cases h; exact ⟨rfl, rfl, rfl⟩
  | string cs => intro r' _ h; cases h; exact ⟨rfl, rfl, rfl⟩
  | any => intro r' _ h; cases h; exact ⟨rfl, rfl, rfl⟩
  | never => intro r' _ h; cases h; exact ⟨rfl, rfl, rfl⟩
  | empty => intro r' _ h; cases h; exact ⟨rfl, rfl, rfl⟩
  | startAnchor => intro r' _ h; cases h; exact ⟨rfl, rfl, rfl⟩
  | endAnchor => intro r' _ h; cases h; exact ⟨rfl, rfl, rfl⟩
  | notStartAnchor => intro r' _ h; cases h; exact ⟨rfl, rfl, rfl⟩
  | notEndAnchor => intro r' _ h; cases h; exact ⟨rfl, rfl, rfl⟩
  | concat a b iha ihb =>
    intro r' hp h
    simp only [Regexp.Regexp.plain, Bool.and_eq_true] at hp
    simp only [Regexp.negate, bind, Option.bind_eq_some_iff, pure, Option.some.injEq] at h
    obtain ⟨x, hx, y, hy, rfl⟩ := h
    have h1 := iha x hp.1 hx
    have h2 := ihb y hp.2 hy
    refine ⟨by simp [Regexp.Regexp.plain, h1, h2], by simp [Regexp.Regexp.fresh, h1, h2], ?_⟩
    rw [negate_concat, h1.2.2, h2.2.2, Regexp.Regexp.fresh, Bool.not_or]
  | either a b iha ihb =>
    intro r' hp h
    simp only [Regexp.Regexp.plain, Bool.and_eq_true] at hp
    simp only [Regexp.negate, bind, Option.bind_eq_some_iff, pure, Option.some.injEq] at h
    obtain ⟨x, hx, y, hy, rfl⟩ := h
    have h1 := iha x hp.1 hx
    have h2 := ihb y hp.2 hy
    refine ⟨by simp [Regexp.Regexp.plain, h1, h2], by simp [Regexp.Regexp.fresh, h1, h2], ?_⟩
    rw [negate_either, h1.2.2, h2.2.2, Regexp.Regexp.fresh, Bool.not_or]
  | optional a ih | zeroOrMore a ih | oneOrMore a ih | group a ih =>
    intro r' hp h
    simp only [Regexp.negate, bind, Option.bind_eq_some_iff, pure, Option.some.injEq] at h
    obtain ⟨x, hx, rfl⟩ := h
    have h1 := ih x hp hx
    refine ⟨h1.1, h1.2.1, ?_⟩
    rw [Regexp.Regexp.fresh, ← h1.2.2]
    simp only [Regexp.negate, bind, pure]
    cases Regexp.negate x <;> rfl
  | notCls cs => intro r' _ h; cases h
  | notString cs => intro r' _ h; cases h
  | _ => intro r' hp h; cases hp

mutual
/-- What is compiled: it fails exactly if something that reads is under two negations; the result is plain, can be negated
exactly if nothing that reads is under one, and is fresh if something reads. -/
theorem fromPattern_compiles (ctx : CharClasses) : ∀ (p : Pattern), p.Proper →
    ((fromPattern ctx p).isSome = !p.readsUnder 2) ∧
    ∀ r, fromPattern ctx p = some r → r.plain = true ∧ (Regexp.negate r).isSome = !p.readsUnder 1 ∧
      (p.readsUnder 1 = false → r.fresh = p.readsUnder 0)
  | .empty, _ => ⟨rfl, fun r h => by cases h; exact ⟨rfl, rfl, fun _ => rfl⟩⟩
  | .characters s, _ => ⟨rfl, fun r h => by cases h; exact ⟨rfl, rfl, fun _ => rfl⟩⟩
  | .boundary side, _ => ⟨rfl, fun r h => by
      cases h
      exact ⟨(boundaryAnchor_plain side).1, boundaryAnchor_negate side, fun _ => (boundaryAnchor_plain side).2⟩⟩
  | .any, _ => ⟨rfl, fun r h => by cases h; exact ⟨rfl, rfl, fun _ => rfl⟩⟩
  | .set cs, _ => ⟨rfl, fun r h => by cases h; exact ⟨rfl, rfl, fun _ => rfl⟩⟩
  | .attributes as, hp => by
    refine ⟨by rw [fromPattern, Option.isSome_map, attributes_isSome hp]; rfl, ?_⟩
    intro r h
    rw [fromPattern, Option.map_eq_some_iff] at h
    obtain ⟨cs, _, rfl⟩ := h
    exact ⟨rfl, rfl, fun _ => rfl⟩
  | .attributesOrBoundary as side, hp => by
    refine ⟨by rw [fromPattern, Option.isSome_map, attributes_isSome hp]; rfl, ?_⟩
    intro r h
    rw [fromPattern, Option.map_eq_some_iff] at h
    obtain ⟨cs, _, rfl⟩ := h
    have := boundaryAnchor_plain side
    refine ⟨by simp [Regexp.Regexp.plain, this], ?_, fun _ => by simp [Regexp.Regexp.fresh, Pattern.readsUnder, Pattern.reads]⟩
    rw [negate_either, boundaryAnchor_negate]
    rfl
  | .group ps, hp => by
    have ih := fromPatterns_compiles ctx ps hp.1 hp.2
    refine ⟨by rw [fromPattern, Option.isSome_map, ih.1, Pattern.readsUnder], ?_⟩
    intro r h
    rw [fromPattern, Option.map_eq_some_iff] at h
    obtain ⟨x, hx, rfl⟩ := h
    have := ih.2 x hx
    refine ⟨this.1, ?_, ?_⟩
    · rw [Pattern.readsUnder, ← this.2.1]
      simp only [Regexp.negate, bind, pure]
      cases Regexp.negate x <;> rfl
    · rw [Pattern.readsUnder, Pattern.readsUnder]; exact this.2.2
  | .negate p, hp => by
    have ih := fromPattern_compiles ctx p hp
    refine ⟨?_, ?_⟩
    · rw [fromPattern, Pattern.readsUnder]
      cases hf : fromPattern ctx p with
      | none =>
        rw [hf] at ih
        have h2 : p.readsUnder 2 = true := by simpa using ih.1
        have := readsUnder_mono p 1 h2
        simp [this]
      | some r =>
        exact (ih.2 r hf).2.1
    · intro r h
      rw [fromPattern, Option.bind_eq_some_iff] at h
      obtain ⟨x, hx, hn⟩ := h
      have h1 := ih.2 x hx
      have h2 := negate_plain x r h1.1 hn
      have h3 : p.readsUnder 1 = false := by
        have := h1.2.1
        rw [hn] at this
        simpa using this
      refine ⟨h2.1, ?_, ?_⟩
      · rw [h2.2.2, h1.2.2 h3]; rfl
      · intro h4
        rw [h2.2.1]
        simp only [Pattern.readsUnder] at h4 ⊢
        exact h4.symm
  | .optional p, hp => by
    have ih := fromPattern_compiles ctx p hp
    refine ⟨by rw [fromPattern, Option.isSome_map, ih.1, Pattern.readsUnder], ?_⟩
    intro r h
    rw [fromPattern, Option.map_eq_some_iff] at h
    obtain ⟨x, hx, rfl⟩ := h
    have := ih.2 x hx
    refine ⟨this.1, ?_, ?_⟩
    · rw [Pattern.readsUnder, ← this.2.1]
      simp only [Regexp.negate, bind, pure]
      cases Regexp.negate x <;> rfl
    · rw [Pattern.readsUnder, Pattern.readsUnder]; exact this.2.2
  | .zeroOrMore p, hp => by
    have ih := fromPattern_compiles ctx p hp
    refine ⟨by rw [fromPattern, Option.isSome_map, ih.1, Pattern.readsUnder], ?_⟩
    intro r h
    rw [fromPattern, Option.map_eq_some_iff] at h
    obtain ⟨x, hx, rfl⟩ := h
    have := ih.2 x hx
    refine ⟨this.1, ?_, ?_⟩
    · rw [Pattern.readsUnder, ← this.2.1]
      simp only [Regexp.negate, bind, pure]
      cases Regexp.negate x <;> rfl
    · rw [Pattern.readsUnder, Pattern.readsUnder]; exact this.2.2
  | .oneOrMore p, hp => by
    have ih := fromPattern_compiles ctx p hp
    refine ⟨by rw [fromPattern, Option.isSome_map, ih.1, Pattern.readsUnder], ?_⟩
    intro r h
    rw [fromPattern, Option.map_eq_some_iff] at h
    obtain ⟨x, hx, rfl⟩ := h
    have := ih.2 x hx
    refine ⟨this.1, ?_, ?_⟩
    · rw [Pattern.readsUnder, ← this.2.1]
      simp only [Regexp.negate, bind, pure]
      cases Regexp.negate x <;> rfl
    · rw [Pattern.readsUnder, Pattern.readsUnder]; exact this.2.2
  | .either l r, hp => by
    have ihl := fromPatterns_compiles ctx l hp.1.1 hp.1.2
    have ihr := fromPatterns_compiles ctx r hp.2.1 hp.2.2
    refine ⟨?_, ?_⟩
    · rw [fromPattern, Pattern.readsUnder, Bool.not_or, ← ihl.1, ← ihr.1]
      cases fromPatterns ctx l <;> cases fromPatterns ctx r <;> rfl
    · intro x h
      rw [fromPattern, Option.bind_eq_some_iff] at h
      obtain ⟨a, ha, h⟩ := h
      rw [Option.map_eq_some_iff] at h
      obtain ⟨b, hb, rfl⟩ := h
      have h1 := ihl.2 a ha
      have h2 := ihr.2 b hb
      refine ⟨by simp [Regexp.Regexp.plain, h1.1, h2.1], ?_, ?_⟩
      · rw [negate_either, h1.2.1, h2.2.1, Pattern.readsUnder, Bool.not_or]
      · intro h0
        rw [Pattern.readsUnder, Bool.or_eq_false_iff] at h0
        rw [Regexp.Regexp.fresh, Pattern.readsUnder, h1.2.2 h0.1, h2.2.2 h0.2]
theorem fromPatterns_compiles (ctx : CharClasses) : ∀ (ps : List Pattern), ps ≠ [] → Pattern.AllProper ps →
    ((fromPatterns ctx ps).isSome = !Pattern.anyReadsUnder 2 ps) ∧
    ∀ r, fromPatterns ctx ps = some r → r.plain = true ∧ (Regexp.negate r).isSome = !Pattern.anyReadsUnder 1 ps ∧
      (Pattern.anyReadsUnder 1 ps = false → r.fresh = Pattern.anyReadsUnder 0 ps)
  | [], h, _ => absurd rfl h
  | p :: ps, _, hp => by
    have ih := fromPattern_compiles ctx p hp.1
    rw [fromPatterns, Pattern.anyReadsUnder, Pattern.anyReadsUnder, Pattern.anyReadsUnder]
    cases hf : fromPattern ctx p with
    | none =>
      rw [hf] at ih
      have h2 : p.readsUnder 2 = true := by simpa using ih.1
      refine ⟨by simp [h2], ?_⟩
      intro r h; cases h
    | some x =>
      have hx := ih.2 x hf
      have hx2 : p.readsUnder 2 = false := by
        have := ih.1; rw [hf] at this; simpa using this
      have := fromPatternsRest_compiles ctx ps hp.2 x (p.readsUnder 1) (p.readsUnder 0) hx.1 hx.2.1 hx.2.2
      rw [hx2, Bool.false_or]
      exact this
theorem fromPatternsRest_compiles (ctx : CharClasses) : ∀ (ps : List Pattern), Pattern.AllProper ps →
    ∀ (acc : Regexp) (one zero : Bool), acc.plain = true → (Regexp.negate acc).isSome = !one → (one = false → acc.fresh = zero) →
    ((fromPatternsRest ctx acc ps).isSome = !Pattern.anyReadsUnder 2 ps) ∧
    ∀ r, fromPatternsRest ctx acc ps = some r → r.plain = true ∧
      (Regexp.negate r).isSome = !(one || Pattern.anyReadsUnder 1 ps) ∧
      ((one || Pattern.anyReadsUnder 1 ps) = false → r.fresh = (zero || Pattern.anyReadsUnder 0 ps))
  | [], _, acc, one, zero, h1, h2, h3 => by
    refine ⟨rfl, ?_⟩
    intro r h
    cases h
    simpa [Pattern.anyReadsUnder, h1, h2] using h3
  | p :: ps, hp, acc, one, zero, h1, h2, h3 => by
    have ih := fromPattern_compiles ctx p hp.1
    rw [fromPatternsRest, Pattern.anyReadsUnder, Pattern.anyReadsUnder, Pattern.anyReadsUnder]
    cases hf : fromPattern ctx p with
    | none =>
      rw [hf] at ih
      have h2 : p.readsUnder 2 = true := by simpa using ih.1
      refine ⟨by simp [h2], ?_⟩
      intro r h; cases h
    | some x =>
      have hx := ih.2 x hf
      have hx2 : p.readsUnder 2 = false := by
        have := ih.1; rw [hf] at this; simpa using this
      have := fromPatternsRest_compiles ctx ps hp.2 (.concat acc x) (one || p.readsUnder 1) (zero || p.readsUnder 0)
        (by simp [Regexp.Regexp.plain, h1, hx.1]) (by rw [negate_concat, h2, hx.2.1, Bool.not_or])
        (by intro h0; rw [Bool.or_eq_false_iff] at h0; rw [Regexp.Regexp.fresh, h3 h0.1, hx.2.2 h0.2])
      rw [hx2, Bool.false_or, ← Bool.or_assoc, ← Bool.or_assoc]
      exact this
/-- Being inside more negations is stronger. -/
theorem readsUnder_mono : ∀ (p : Pattern) (n : Nat), p.readsUnder (n + 1) = true → p.readsUnder n = true
  | .negate p, n, h => by
    rw [Pattern.readsUnder] at h ⊢
    cases n with
    | zero => exact h
    | succ n => exact readsUnder_mono p n h
  | .group ps, n, h => by rw [Pattern.readsUnder] at h ⊢; exact anyReadsUnder_mono ps n h
  | .optional p, n, h => by rw [Pattern.readsUnder] at h ⊢; exact readsUnder_mono p n h
  | .zeroOrMore p, n, h => by rw [Pattern.readsUnder] at h ⊢; exact readsUnder_mono p n h
  | .oneOrMore p, n, h => by rw [Pattern.readsUnder] at h ⊢; exact readsUnder_mono p n h
  | .either l r, n, h => by
    rw [Pattern.readsUnder, Bool.or_eq_true] at h ⊢
    exact h.imp (anyReadsUnder_mono l n) (anyReadsUnder_mono r n)
  | .empty, n, h => by simp [Pattern.readsUnder] at h
  | .characters _, n, h => by simp [Pattern.readsUnder] at h
  | .boundary _, n, h => by simp [Pattern.readsUnder] at h
  | .any, n, h => by simp [Pattern.readsUnder] at h
  | .set _, n, h => by simp [Pattern.readsUnder] at h
  | .attributes _, n, h => by simp [Pattern.readsUnder] at h
  | .attributesOrBoundary _ _, n, h => by simp [Pattern.readsUnder] at h
theorem anyReadsUnder_mono : ∀ (ps : List Pattern) (n : Nat), Pattern.anyReadsUnder (n + 1) ps = true →
    Pattern.anyReadsUnder n ps = true
  | [], n, h => by simp [Pattern.anyReadsUnder] at h
  | p :: ps, n, h => by
    rw [Pattern.anyReadsUnder, Bool.or_eq_true] at h ⊢
    exact h.imp (readsUnder_mono p n) (anyReadsUnder_mono ps n)
end

/-- C37, exactly: an accepted (nonempty) operand of `match` makes the compilation panic if and only if some text, set or
attributes of it is inside two negations. -/
theorem C37_compiles_iff (ctx : CharClasses) (side : Side) (s : Text) (ps : List Pattern) (hs : s ≠ [])
    (h : parseMatch side s = .ok ps) : fromPatterns ctx ps = none ↔ Pattern.anyReadsUnder 2 ps = true := by
  obtain ⟨hne, hp⟩ := parseMatch_proper h hs
  have := (fromPatterns_compiles ctx ps hne hp).1
  cases hf : fromPatterns ctx ps with
  | none => rw [hf] at this; simpa using this
  | some r => rw [hf] at this; simpa using this

/-- C37: accepted patterns without nested negations compile. -/
theorem C37_no_panic_partial (ctx : CharClasses) (side : Side) (s : Text) (ps : List Pattern) (hs : s ≠ [])
    (h : parseMatch side s = .ok ps) (hn : Pattern.anyReadsUnder 2 ps = false) : ∃ r, fromPatterns ctx ps = some r := by
  cases hf : fromPatterns ctx ps with
  | some r => exact ⟨r, rfl⟩
  | none => rw [C37_compiles_iff ctx side s ps hs h, hn] at hf; cases hf

/-- The hypotheses are met by patterns with negation. -/
example : ∃ ps, parseMatch .pre "!(a|!.)b".toList = .ok ps ∧ Pattern.anyReadsUnder 2 ps = false :=
  ⟨[.negate (.group [.either [.characters ['a']] [.negate .any]]), .characters ['b']], by decide +kernel, by decide +kernel⟩

/-- C37 does not hold: the pattern `!(!a)` is accepted, and compiling it panics. -/
theorem C37_nested_negation_wrong (ctx : CharClasses) :
    ∃ ps, parseMatch .pre "!(!a)".toList = .ok ps ∧ fromPatterns ctx ps = none :=
  ⟨[.negate (.group [.negate (.characters ['a'])])], by decide +kernel, by
    rw [C37_compiles_iff ctx .pre "!(!a)".toList _ (by decide) (by decide +kernel)]; decide +kernel⟩

/-! ## C37: what negation means -/

/-- The pattern stands for one character, and the characters it accepts. -/
inductive OneCharacter (ctx : CharClasses) : Pattern → (Char → Prop) → Prop
  | character (c : Char) : OneCharacter ctx (.characters [c]) (· = c)
  | set (cs : List Char) : OneCharacter ctx (.set cs) (· ∈ cs)
  | any : OneCharacter ctx .any fun _ => True
  | attributes (as : List Attr) (h : ∀ a ∈ as, a.IsClass) :
      OneCharacter ctx (.attributes as) fun c => ∃ k, .cls k ∈ as ∧ ctx.has k c = true

theorem CharClasses.mem_of_get (ctx : CharClasses) (k : CharClass) (c : Char) : c ∈ (ctx.get k).getD [] ↔ ctx.has k c = true := by
  have hm : c ∈ (ctx.filter (·.1 == k)).map (·.2) ↔ ctx.has k c = true := by
    simp only [List.mem_map, List.mem_filter, beq_iff_eq, Prod.exists, exists_eq_right, CharClasses.has, List.contains_eq_mem,
      decide_eq_true_eq]
  rw [← hm, CharClasses.get]
  split
  · rename_i h; simp [h]
  · simp

theorem mem_attributes_some {ctx : CharClasses} {as : List Attr} {cs : List Char} (h : matchAttributes ctx as = some cs)
    (c : Char) : c ∈ cs ↔ ∃ k, .cls k ∈ as ∧ ctx.has k c = true := by
  induction as generalizing cs with
  | nil => cases h; simp
  | cons a as ih =>
    cases a with
    | cls k =>
      rw [matchAttributes, Option.map_eq_some_iff] at h
      obtain ⟨ds, hds, rfl⟩ := h
      rw [List.mem_append, CharClasses.mem_of_get, ih hds]
      constructor
      · rintro (h | ⟨k', h1, h2⟩)
        · exact ⟨k, by simp, h⟩
        · exact ⟨k', by simp [h1], h2⟩
      · rintro ⟨k', h1, h2⟩
        rcases List.mem_cons.mp h1 with he | h1
        · cases he; exact .inl h2
        · exact .inr ⟨k', h1, h2⟩
    | boundary => cases h
    | byOrder n => cases h
    | any =>
      rw [matchAttributes] at h
      rw [ih h]
      simp

theorem eatsAll_singleton {P : Char → Char → Prop} {c : Char} {s s' : St} :
    Louis.Regexp.EatsAll P [c] s s' ↔ Eats (P c) s s' := by
  simp only [Louis.Regexp.EatsAll]
  constructor
  · rintro ⟨t, h, rfl⟩; exact h
  · intro h; exact ⟨s', h, rfl⟩

/-- C37: a pattern that stands for one character compiles, and so does its negation; the pattern consumes one character it
accepts, the negation consumes one character it does not accept. -/
theorem C37_negated_character (ctx : CharClasses) (p : Pattern) (P : Char → Prop) (h : OneCharacter ctx p P)
    (lower : Char → List Char) (env : Nat → Option Nat) (atStart : Bool) :
    ∃ r r', fromPattern ctx p = some r ∧ fromPattern ctx (.negate p) = some r' ∧
      (∀ s s', Matches lower env atStart r s s' ↔ Eats P s s') ∧
      (∀ s s', Matches lower env atStart r' s s' ↔ Eats (fun c => ¬ P c) s s') := by
  cases h with
  | character c =>
    refine ⟨.string [c], .notString [c], rfl, rfl, ?_, ?_⟩
    · intro s s'; exact eatsAll_singleton
    · intro s s'; exact eatsAll_singleton
  | set cs => exact ⟨.cls cs, .notCls cs, rfl, rfl, fun s s' => Iff.rfl, fun s s' => Iff.rfl⟩
  | any =>
    refine ⟨.any, .never, rfl, rfl, fun s s' => Iff.rfl, ?_⟩
    intro s s'
    constructor
    · intro h; exact h.elim
    · rintro ⟨c, t, _, hc, _⟩; exact (hc trivial).elim
  | attributes as h =>
    obtain ⟨cs, hcs⟩ := Option.isSome_iff_exists.mp (attributes_isSome (ctx := ctx) h)
    refine ⟨.cls cs, .notCls cs, by rw [fromPattern, hcs]; rfl, by rw [fromPattern, fromPattern, hcs]; rfl, ?_, ?_⟩
    · intro s s'
      show Eats (· ∈ cs) s s' ↔ _
      simp only [Eats, mem_attributes_some hcs]
    · intro s s'
      show Eats (· ∉ cs) s s' ↔ _
      simp only [Eats, mem_attributes_some hcs]

/-- C37 does not hold of attributes with a boundary: `!%[_^]` is read as "a character other than a space, or no boundary", so
it accepts the empty text before a space. -/
theorem C37_negated_boundary_wrong (lower : Char → List Char) (env : Nat → Option Nat) :
    ∃ ps r, parseMatch .post "!%[_^]".toList = .ok ps ∧ fromPatterns [(.space, ' ')] ps = some r ∧
      ∀ rest, Matches lower env false r ⟨0, ' ' :: rest, (0, 0)⟩ ⟨0, ' ' :: rest, (0, 0)⟩ :=
  ⟨[.negate (.attributesOrBoundary [.cls .space] .post)], .either (.notCls [' ']) .notEndAnchor, by decide +kernel, rfl,
    fun rest => .inr ⟨by simp, rfl⟩⟩

/-- C37 does not hold of texts: `!ab` does not accept the text `ac`, which is not `ab`. -/
theorem C37_negated_text_wrong (lower : Char → List Char) (env : Nat → Option Nat) (ctx : CharClasses) :
    ∃ ps r, parseMatch .post "!ab".toList = .ok ps ∧ fromPatterns ctx ps = some r ∧
      ∀ s', ¬ Matches lower env false r (St.init ['a', 'c']) s' := by
  refine ⟨[.negate (.characters ['a', 'b'])], .notString ['a', 'b'], by decide +kernel, rfl, ?_⟩
  rintro s' ⟨t, ⟨c, u, hr, hc, _⟩, _⟩
  simp only [St.init, List.cons.injEq] at hr
  exact hc hr.1.symm

end Louis
