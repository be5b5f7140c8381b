import Verif.Props.Whole
import Verif.Props.MainTables
import Verif.Props.Precedence
import Verif.Props.DirectionWords

/-!
# C25 of whole translators: a line with `nocross` never translates across a place for a hyphen
-/

namespace Louis

theorem nocross_ops {ctx : TableCtx} {d : Direction} {L : List Char} {D : List Text} {r : Anchored} (hn : r.rule.isNocross = true)
    {ops : List PrimOp} (e : r.ops ctx d L D = .ok ops) : ∀ op ∈ ops, ∃ x, op = .rule true x := by
  have ins : ∀ a b c e w, ∃ x, r.insertion a b c e w = .rule true x := fun a b c e w => ⟨_, by unfold Anchored.insertion; rw [hn]⟩
  obtain ⟨rule, id⟩ := r
  cases rule <;> simp only [Rule.isNocross] at hn <;> try cases hn
  all_goals
    intro op h
    simp only [Anchored.ops] at e
    try (split at e <;> try cases e)
    all_goals try (injection e with e; subst e)
    all_goals first
    | (obtain ⟨q, -, rfl⟩ := List.mem_map.mp h; exact ins ..)
    | (rw [List.mem_singleton.mp h]; exact ins ..)
    | (split at h <;> first | (rw [List.mem_singleton.mp h]; exact ins ..) | cases h)
    | cases h
    | exact (nomatch h)

/-- The operations of a line with `nocross` are gated. -/
theorem nocross_line {ctx : TableCtx} {d : Direction} {L : List Char} {D : List Text} {r : Anchored} (hn : r.rule.isNocross = true) :
    (∀ op ∈ r.firstOps, ∃ x, op = .rule true x) ∧ ∀ op ∈ r.opsD ctx d L D, ∃ x, op = .rule true x := by
  constructor
  · intro op h
    unfold Anchored.firstOps at h
    split at h
    · next e => rw [e] at hn; cases hn
    · next e => rw [e] at hn; cases hn
    · cases h
  · intro op h
    unfold Anchored.opsD at h
    cases e : r.ops ctx d L D with
    | error _ => rw [e] at h; cases h
    | ok ops => rw [e] at h; exact nocross_ops hn e op h

/-- A line for a piece of text that allows `nocross` defines no sign. -/
theorem nocross_no_sign {r : Rule} (hn : r.isNocross = true) : r.sign? = none := by
  cases r <;> simp only [Rule.isNocross] at hn <;> first | rfl | cases hn

/-- The line is marked `nocross`: one of the lines that allow it. -/
theorem RuleSrc.nocross {cons : RuleCons} {withs : List WithClass} {body : List Text} {r : Rule}
    (h : RuleSrc cons withs body r) (he : ∀ c, r ≠ .other c) : r.isNocross = cons.nocross := by
  have e := h.cons_eq he
  have key : ∀ q : Rule, q.cons.nocross = false → q.isNocross = false := by
    intro q hq
    cases q <;> first | rfl | exact hq
  have k9 : ∀ p ∈ charsDotsAnyOpcodes, ∀ a b c, (∀ c', p.2 a b c ≠ .other c') → (p.2 a b c).isNocross = c.nocross := by
    simp [charsDotsAnyOpcodes, Rule.isNocross]
  have k8 : ∀ p ∈ charsDotsDirOpcodes, ∀ a b c, (∀ c', p.2 a b c ≠ .other c') → (p.2 a b c).isNocross = c.nocross := by
    simp [charsDotsDirOpcodes, Rule.isNocross]
  cases hc : cons.nocross with
  | false => exact key r (by rw [e, hc])
  | true =>
    cases h
    case charsDotsAny ho _ _ => rw [k9 _ ho _ _ _ he, hc]
    all_goals first
    | exact hc
    | (rename_i h'; rw [h'] at hc; cases hc)

/-- **C25** of translators: what a line with `nocross` writes never stands for text with a hyphenation point of the last included
dictionary inside. -/
theorem C25_translator {sys : Sys} {rules : List Anchored} {steps : List Transform} (hids : DistinctIds rules)
    (h : Pipeline.Compiles sys rules .forward steps) {cs : Case} {spans : List Span} {input : Text} {tss : List (List Resolved)}
    (ht : Pipeline.Traces cs spans input steps tss) (r : Anchored) (hr : r ∈ rules) (hn : r.rule.isNocross = true)
    (hy : Hyphenation) (hh : lastHyphenation sys (allowedRules rules .forward) = some hy) :
    ∃ i p text ts, steps[i]? = some (.primary p) ∧ StageText input tss i text ∧ tss[i]? = some ts ∧
      ∀ before tr after, ts = before ++ tr :: after → tr.origin = some r.origin →
        ∀ k, k + 1 < tr.input.length → ¬ BreakAfter hy
          ((TableCtx.compile sys.alpha (allowedRules rules .forward)).classes.members .letter) text
          ((before.map (·.input.length)).sum + k) := by
  obtain ⟨-, hs⟩ := traces_stage ht
  obtain ⟨correct, p, pass2, pass3, pass4, he, hp, -⟩ := C11_stages sys rules .forward steps h
  have hm : Transform.primary p ∈ steps := by
    rw [he]
    simp [inOrder]
  obtain ⟨i, hlt, hi⟩ := List.mem_iff_getElem.1 hm
  have hsi : steps[i]? = some (.primary p) := by rw [List.getElem?_eq_getElem hlt, hi]
  obtain ⟨text, ts, g1, g2, enriched, cons, ind, k1, k2, k3, g4⟩ := hs i _ hsi
  have m : MainStage sys (TableCtx.compile sys.alpha (allowedRules rules .forward)) .forward (allowedRules rules .forward) p := hp
  have fl := flags_table m k1 k2
  refine ⟨i, p, text, ts, hsi, g1, g2, fun before tr after e ho k hk hb => ?_⟩
  have := C25_nocross_never_spans_break _ _ _ p.table m.built cs cons _ text ts g4 r.origin
    (fun pos x hx => by
      obtain ⟨q, hq, dots, q1, q2⟩ := m.signs x (precompute_signs _ _ _ _ _ k3 pos x hx)
      subst q2
      refine ⟨rfl, fun hc => ?_⟩
      have := hids.origin hr (mem_allowed.1 hq).1 hc
      subst this
      rw [nocross_no_sign hn] at q1
      cases q1)
    (fun op hop hop' => by
      obtain ⟨z, hz, hz'⟩ := mem_tableOps hop
      have : z = r := hids.origin hr (mem_allowed.1 hz).1 (by
        rcases hz' with hz' | hz'
        · rw [firstOps_origin op hz' _ hop']
        · rw [opsD_origin op hz' _ hop'])
      subst this
      rcases hz' with hz' | hz'
      · exact (nocross_line (ctx := ⟨[], [], [], []⟩) (d := .forward) (L := []) (D := []) hn).1 op hz'
      · exact (nocross_line hn).2 op hz')
    before tr after e ho ((before.map (·.input.length)).sum + k) (by omega) (by omega)
  have hbr : cons.hyphenationBreak ((before.map (·.input.length)).sum + k) = true := (fl.hyphen _).2 ⟨rfl, hy, hh, hb⟩
  rw [this] at hbr
  cases hbr

/-- **C25**, from the line: which lines are gated is decided by the word `nocross`: the first word, or the second one after `nofor` or
`noback`. -/
theorem C25_nocross_words {line : Text} {r : Rule} (h : parseLine line = some r) (he : ∀ c, r ≠ .other c) :
    r.isNocross = true ↔ ∃ ps rest, tokens line = ps ++ "nocross".toList :: rest ∧ (ps = [] ∨ ps = ["nofor".toList] ∨ ps = ["noback".toList]) := by
  have hl := (C58_line_grammar line r).mp h
  generalize tokens line = words at hl
  obtain ⟨ps, ws, es, body, rest, cons, withs, _, hp, hw, hes, hb⟩ := hl
  have tail := body_head hw hes hb rest
  rw [hb.nocross he]
  obtain ⟨dir, cross, nofor, noback, nocross, hd, hc⟩ := hp
  generalize ws ++ (es ++ (body ++ rest)) = tl at tail
  have hd' : dir = [] ∨ dir = ["nofor".toList] ∨ dir = ["noback".toList] := by
    simp only [List.mem_cons, Prod.mk.injEq, List.not_mem_nil, or_false] at hd
    rcases hd with ⟨h, -⟩ | ⟨h, -⟩ | ⟨h, -⟩ <;> simp [h]
  simp only [List.mem_cons, Prod.mk.injEq, List.not_mem_nil, or_false] at hc
  rcases hc with ⟨rfl, rfl⟩ | ⟨rfl, rfl⟩
  · refine iff_of_false (by simp) ?_
    rintro ⟨qs, more, hq, hqs⟩
    rw [List.append_nil] at hq
    rcases hd' with rfl | rfl | rfl <;> rcases hqs with rfl | rfl | rfl <;>
      simp only [List.nil_append, List.cons_append, List.cons.injEq] at hq
    · exact tail _ (by rw [hq]; rfl) (.inr (.inr rfl))
    · exact tail _ (by rw [hq]; rfl) (.inl rfl)
    · exact tail _ (by rw [hq]; rfl) (.inr (.inl rfl))
    · exact absurd hq.1 (by decide)
    · exact tail _ (by rw [hq.2]; rfl) (.inr (.inr rfl))
    · exact absurd hq.1 (by decide)
    · exact absurd hq.1 (by decide)
    · exact absurd hq.1 (by decide)
    · exact tail _ (by rw [hq.2]; rfl) (.inr (.inr rfl))
  · refine iff_of_true rfl ⟨dir, tl, by simp, hd'⟩

/-! ## An example -/

/-- The letters, a dictionary, and a contraction that must not stand across a place for a hyphen. -/
def gatedTable : List Anchored :=
  [⟨.charDef .letter 'a' [[.d1]] .none, 0⟩, ⟨.charDef .letter 'b' [[.d1, .d2]] .none, 1⟩, ⟨.charDef .letter 'c' [[.d1, .d4]] .none, 2⟩,
   ⟨.charDef .letter 'd' [[.d1, .d4, .d5]] .none, 3⟩, ⟨.includeHyphenation "demo.dic".toList, 4⟩,
   ⟨.text .always "bc".toList (.explicit [[.d5]]) ⟨false, false, true⟩ [], 5⟩]

def dictionarySys : Sys := ⟨Char.isAlpha, fun _ => some demoDic⟩

/-- The contraction is used in `bc` but not in `abcdab`, where the dictionary has a place for a hyphen in it. -/
example : ∃ steps out, Pipeline.Compiles dictionarySys gatedTable .forward steps ∧
    (∃ hy, lastHyphenation dictionarySys (allowedRules gatedTable .forward) = some hy) ∧
    Pipeline.Translates asciiCase [] "abcdab".toList steps out ∧ out = "⠁⠃⠉⠙⠁⠃".toList ∧
    Pipeline.Translates asciiCase [] "bc".toList steps "⠐".toList := by
  obtain ⟨steps, tss, h1, -, -, h2⟩ := runText_sound (sys := dictionarySys) (cs := asciiCase) (fuel := 40) (rules := gatedTable) (d := .forward)
    (spans := []) (input := "abcdab".toList) (output := "⠁⠃⠉⠙⠁⠃".toList) (by decide +kernel)
  obtain ⟨steps', tss', h1', -, -, h2'⟩ := runText_sound (sys := dictionarySys) (cs := asciiCase) (fuel := 40) (rules := gatedTable) (d := .forward)
    (spans := []) (input := "bc".toList) (output := "⠐".toList) (by decide +kernel)
  rw [h1] at h1'
  cases h1'
  refine ⟨steps, _, compile_compiles h1, Option.isSome_iff_exists.mp (by decide +kernel), h2, rfl, h2'⟩

end Louis
