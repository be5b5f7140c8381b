import Verif.Spec.Emphasis
import Verif.Props.Emphasis

/-!
# C29: the signs of every stretch of emphasised text, and their order
-/

namespace Louis

open Regexp (Fault)

/-- Two maximal stretches with a common position are equal. -/
theorem Stretch.unique {P : Nat → Prop} {a b c d i : Nat} (h : Stretch P a b) (h' : Stretch P c d) (h1 : a ≤ i) (h2 : i < b)
    (h3 : c ≤ i) (h4 : i < d) : a = c ∧ b = d := by
  refine ⟨?_, ?_⟩
  · rcases Nat.lt_trichotomy a c with hlt | rfl | hlt
    · exact absurd (h.all (c - 1) (by omega) (by omega)) (h'.before (c - 1) (by omega))
    · rfl
    · exact absurd (h'.all (a - 1) (by omega) (by omega)) (h.before (a - 1) (by omega))
  · rcases Nat.lt_trichotomy b d with hlt | rfl | hlt
    · exact absurd (h'.all b (by omega) (by omega)) h.after
    · rfl
    · exact absurd (h.all d (by omega) (by omega)) h'.after

/-- Runs of a list as stretches of positions. -/
theorem runs_stretch {α : Type} {p : α → Bool} {l : List α} {pos : Nat} {runs : List (Nat × Nat)} (h : RunsOf p l pos runs)
    {P : Nat → Prop} (hP : ∀ i, P i ↔ pos ≤ i ∧ ∃ c, l[i - pos]? = some c ∧ p c = true) (r : Nat × Nat) :
    r ∈ runs ↔ Stretch P r.1 r.2 := by
  obtain ⟨h1, h2, -, h4⟩ := h
  have key : ∀ r ∈ runs, Stretch P r.1 r.2 := by
    intro r hr
    obtain ⟨a1, a2, a3, a4⟩ := h1 r hr
    obtain ⟨b1, b2⟩ := h2 r hr
    refine ⟨a2, fun i hi1 hi2 => (hP i).mpr ⟨by omega, a4 i hi1 hi2⟩, ?_, ?_⟩
    · intro i hi hp
      obtain ⟨c1, c, c2, c3⟩ := (hP i).mp hp
      have : r.1 - 1 - pos = i - pos := by omega
      rw [← this] at c2
      rw [b1 c (by omega) c2] at c3
      cases c3
    · intro hp
      obtain ⟨c1, c, c2, c3⟩ := (hP _).mp hp
      rw [b2 c c2] at c3
      cases c3
  refine ⟨key r, fun hs => ?_⟩
  obtain ⟨c1, c, c2, c3⟩ := (hP r.1).mp (hs.all r.1 (Nat.le_refl _) hs.nonempty)
  obtain ⟨r', hr', e1, e2⟩ := h4 _ c c2 c3
  obtain ⟨f1, f2⟩ := hs.unique (key r' hr') (Nat.le_refl _) hs.nonempty (by omega) (by omega)
  have : r = r' := Prod.ext f1 f2
  rw [this]; exact hr'

theorem isSep_iff (x : EmphClass) (c : Char) : x.isSep c = true ↔ (x.modeChars = [] ∧ c ∈ x.spaces) ∨ c ∈ x.modeChars := by
  unfold EmphClass.isSep
  cases h : x.modeChars <;> simp

theorem sepAt_iff (x : EmphClass) (text : Text) (i : Nat) : x.sepAt text i = true ↔ SepAt x text i := by
  unfold EmphClass.sepAt SepAt
  cases text[i]? <;> simp [isSep_iff]

theorem sepAt_false (x : EmphClass) (text : Text) (i : Nat) : x.sepAt text i = false ↔ ¬ SepAt x text i := by
  rw [← sepAt_iff]; simp

section

variable {x : EmphClass} {text : Text} {start stop : Nat}

theorem segments_words (hs : stop ≤ text.length) : WordsIn x text start stop (x.segments text start stop) := by
  have h := C26_maximal_runs (fun c => !x.isSep c) text start stop
  refine ⟨fun w => ?_, h.2.2.1⟩
  refine runs_stretch h (fun i => ?_) w
  constructor
  · rintro ⟨h1, h2, h3⟩
    refine ⟨h1, ?_⟩
    obtain ⟨c, hc⟩ : ∃ c, text[i]? = some c := ⟨text[i]'(by omega), List.getElem?_eq_getElem (by omega)⟩
    refine ⟨c, ?_, ?_⟩
    · rw [List.getElem?_drop, List.getElem?_take, if_pos (by omega)]
      rw [← hc]; congr 1; omega
    · cases hx : x.isSep c with
      | false => rfl
      | true => exact absurd ⟨c, hc, (isSep_iff x c).mp hx⟩ h3
  · rintro ⟨h1, c, h2, h3⟩
    rw [List.getElem?_drop, List.getElem?_take] at h2
    split at h2
    · have e : start + (i - start) = i := by omega
      rw [e] at h2
      refine ⟨h1, by omega, ?_⟩
      rintro ⟨c', hc', hx⟩
      rw [h2] at hc'
      cases hc'
      rw [(isSep_iff x _).mpr hx] at h3
      cases h3
    · cases h2

theorem words_bounds {ws : List (Nat × Nat)} (h : WordsIn x text start stop ws) {w : Nat × Nat} (hw : w ∈ ws) :
    start ≤ w.1 ∧ w.1 < w.2 ∧ w.2 ≤ stop := by
  have h' := (h.1 w).mp hw
  have h1 := h'.all w.1 (Nat.le_refl _) h'.nonempty
  have h2 := h'.all (w.2 - 1) (by have := h'.nonempty; omega) (by have := h'.nonempty; omega)
  have := h'.nonempty
  omega

/-- Every position without separator is in a word. -/
theorem words_cover (hs : stop ≤ text.length) {ws : List (Nat × Nat)} (h : WordsIn x text start stop ws) {i : Nat} (h1 : start ≤ i)
    (h2 : i < stop) (h3 : ¬ SepAt x text i) : ∃ w ∈ ws, w.1 ≤ i ∧ i < w.2 := by
  have hr := C26_maximal_runs (fun c => !x.isSep c) text start stop
  have hw := segments_words (x := x) (start := start) hs
  obtain ⟨c, hc⟩ : ∃ c, text[i]? = some c := ⟨text[i]'(by omega), List.getElem?_eq_getElem (by omega)⟩
  have hx : x.isSep c = false := by
    cases hx : x.isSep c with
    | false => rfl
    | true => exact absurd ⟨c, hc, (isSep_iff x c).mp hx⟩ h3
  obtain ⟨r, hr1, hr2, hr3⟩ := hr.2.2.2 (i - start) c (by
    rw [List.getElem?_drop, List.getElem?_take, if_pos (by omega)]
    rw [← hc]; congr 1; omega) (by simp [hx])
  exact ⟨r, (h.1 r).mpr ((hw.1 r).mp hr1), by omega, by omega⟩

theorem first_word (hs : stop ≤ text.length) {w : Nat × Nat} {ws : List (Nat × Nat)} (h : WordsIn x text start stop (w :: ws)) :
    x.firstChar text start stop = some w.1 := by
  have hb := words_bounds h (List.mem_cons_self ..)
  have hw := (h.1 w).mp (List.mem_cons_self ..)
  have hns := (hw.all w.1 (Nat.le_refl _) hw.nonempty).2.2
  cases hf : x.firstChar text start stop with
  | none => exact absurd ((sepAt_iff ..).mp (firstChar_none hf w.1 hb.1 (by omega))) hns
  | some i =>
    obtain ⟨a, b, c, d⟩ := firstChar_bounds hf
    obtain ⟨v, hv, v1, v2⟩ := words_cover hs h a b ((sepAt_false ..).mp c)
    have hle : i ≤ w.1 := by
      rcases Nat.lt_or_ge w.1 i with hlt | hge
      · exact absurd ((sepAt_iff ..).mp (d w.1 hb.1 hlt)) hns
      · exact hge
    have hge : w.1 ≤ i := by
      rcases List.mem_cons.mp hv with rfl | hv
      · exact v1
      · have := (List.pairwise_cons.mp h.2).1 v hv
        omega
    congr 1
    omega

theorem last_word (hs : stop ≤ text.length) {ws : List (Nat × Nat)} {w : Nat × Nat} (h : WordsIn x text start stop ws)
    (hl : ws.getLast? = some w) : x.lastChar text start stop = some w.2 := by
  have hmem := List.mem_of_getLast? hl
  have hb := words_bounds h hmem
  have hw := (h.1 w).mp hmem
  have hns := (hw.all (w.2 - 1) (by omega) (by omega)).2.2
  cases hf : x.lastChar text start stop with
  | none => exact absurd ((sepAt_iff ..).mp (lastChar_none hf (w.2 - 1) (by omega) (by omega))) hns
  | some e =>
    obtain ⟨a, b, c, d⟩ := lastChar_bounds hf
    obtain ⟨v, hv, v1, v2⟩ := words_cover hs h (i := e - 1) (by omega) (by omega) ((sepAt_false ..).mp c)
    have hle : w.2 ≤ e := by
      rcases Nat.lt_or_ge e w.2 with hlt | hge
      · exact absurd ((sepAt_iff ..).mp (d (w.2 - 1) (by omega) (by omega))) hns
      · exact hge
    have hge : e ≤ w.2 := by
      obtain ⟨us, rfl⟩ := List.getLast?_eq_some_iff.mp hl
      rcases List.mem_append.mp hv with hv | hv
      · have := (List.pairwise_append.mp h.2).2.2 v hv w (by simp)
        omega
      · rw [List.mem_singleton.mp hv] at v2; omega
    congr 1
    omega

theorem no_words (hs : stop ≤ text.length) (h : WordsIn x text start stop []) :
    x.firstChar text start stop = none ∧ x.lastChar text start stop = none := by
  constructor
  · cases hf : x.firstChar text start stop with
    | none => rfl
    | some i =>
      obtain ⟨a, b, c, d⟩ := firstChar_bounds hf
      obtain ⟨v, hv, -⟩ := words_cover hs h a b ((sepAt_false ..).mp c)
      cases hv
  · cases hf : x.lastChar text start stop with
    | none => rfl
    | some i =>
      obtain ⟨a, b, c, d⟩ := lastChar_bounds hf
      obtain ⟨v, hv, -⟩ := words_cover hs h (i := i - 1) (by omega) (by omega) ((sepAt_false ..).mp c)
      cases hv

/-- The positions and signs of events. -/
def signsOf (es : List EmphEvent) : List (Nat × Resolved) := es.map fun e => (e.1, e.2.1)

theorem singleWord_spec (w : Nat × Nat) (hw : w.1 < w.2) : WordSign x w (signsOf (x.singleWord w)) := by
  unfold EmphClass.singleWord
  split
  · rename_i t ht
    split at ht
    · exact .letter (by omega) ht
    · cases ht
  · rename_i ht
    have h : w.2 ≠ w.1 + 1 ∨ x.emphletter = none := by
      split at ht
      · exact .inr ht
      · exact .inl (by omega)
    cases hb : x.begemphword with
    | none => exact .none h hb
    | some t => exact .word h hb

theorem emphWords_spec : ∀ (ws : List (Nat × Nat)), (∀ w ∈ ws, w.1 < w.2) → WordSigns x ws (signsOf (ws.flatMap x.singleWord))
  | [], _ => .nil
  | w :: ws, h => by
    have := WordSigns.cons (singleWord_spec (x := x) w (h w (by simp))) (emphWords_spec ws fun v hv => h v (by simp [hv]))
    simpa [signsOf] using this

theorem whole_words (hs : stop ≤ text.length) {w : Nat × Nat} {ws : List (Nat × Nat)} (h : WordsIn x text start stop (w :: ws)) :
    (((x.firstChar text start stop).getD start == 0 || x.sepAt text ((x.firstChar text start stop).getD start - 1)) &&
      (decide ((x.lastChar text start stop).getD start ≥ text.length) || x.sepAt text ((x.lastChar text start stop).getD start))) = true ↔
    WholeWords x text w (ws.getLast?.getD w) := by
  rw [first_word hs h, last_word hs h (w := ws.getLast?.getD w) (by
    cases ws with
    | nil => rfl
    | cons a b => simp [List.getLast?_cons])]
  unfold WholeWords
  simp only [Option.getD_some, Bool.and_eq_true, Bool.or_eq_true, beq_iff_eq, decide_eq_true_eq, sepAt_iff]
  refine and_congr ?_ Iff.rfl
  constructor
  · rintro (h | h) i hi
    · omega
    · have : w.1 - 1 = i := by omega
      rw [this] at h; exact h
  · intro h
    rcases Nat.eq_zero_or_pos w.1 with h0 | h0
    · exact .inl h0
    · exact .inr (h _ (by omega))

theorem total_one {w : Nat × Nat} {ws : List (Nat × Nat)} (h : ∀ v ∈ w :: ws, v.1 < v.2) :
    ((w :: ws).map fun v => v.2 - v.1).sum = 1 ↔ ws = [] ∧ w.2 = w.1 + 1 := by
  have hw := h w (by simp)
  cases ws with
  | nil => simp; omega
  | cons v vs =>
    have hv := h v (by simp)
    simp; omega

/-- **C29**, the signs of a maximal stretch of emphasised text. -/
theorem emitRun_spec (hs : stop ≤ text.length) : RunSigns x text start stop (signsOf (x.emitRun text start stop)) := by
  have hws := segments_words (x := x) (start := start) hs
  unfold EmphClass.emitRun
  cases hb : x.begemph with
  | some b =>
    have : signsOf (((x.firstChar text start stop).getD start, b, EmitKind.opn stop) ::
        (x.endemph.map fun e => ((x.lastChar text start stop).getD stop, e, EmitKind.close ((x.firstChar text start stop).getD start))).toList) =
        ((x.firstChar text start stop).getD start, b) :: (x.endemph.map fun e => ((x.lastChar text start stop).getD stop, e)).toList := by
      cases x.endemph <;> rfl
    simp only [this]
    refine .brackets hb hws ?_ ?_
    · cases hseg : x.segments text start stop with
      | nil => rw [hseg] at hws; rw [(no_words hs hws).1]; rfl
      | cons w ws => rw [hseg] at hws; rw [first_word hs hws]; rfl
    · cases hseg : (x.segments text start stop).getLast? with
      | none =>
        rw [List.getLast?_eq_none_iff] at hseg
        rw [hseg] at hws; rw [(no_words hs hws).2]; rfl
      | some w => rw [last_word hs hws hseg]; rfl
  | none =>
    simp only
    cases hseg : x.segments text start stop with
    | nil => rw [hseg] at hws; exact .nothing hb hws
    | cons w ws =>
      rw [hseg] at hws
      have hlen : ∀ v ∈ w :: ws, v.1 < v.2 := fun v hv => (words_bounds hws hv).2.1
      have hwhole := whole_words hs hws
      simp only
      split
      · rename_i hc
        have hwh := hwhole.mp hc
        unfold EmphClass.cleanWords
        simp only
        split
        · rename_i b hph
          have hp : x.lenPhrase ≤ (w :: ws).length ∧ x.begemphphrase = some b := by
            split at hph
            · exact ⟨by simpa using ‹_›, hph⟩
            · cases hph
          split
          · rename_i hbef
            exact .phraseBefore hb hws hwh hp.1 hp.2 hbef (singleWord_spec _ (hlen _ (getLast_mem w ws)))
          · rename_i hbef
            have := RunSigns.phraseAfter hb hws hwh hp.1 hp.2 (by simpa using hbef)
            unfold signsOf
            cases he : x.endemphphrase with
            | none => rw [he] at this; exact this
            | some e => rw [he] at this; exact this
        · rename_i hph
          refine .words hb hws hwh ?_ (emphWords_spec _ hlen)
          split at hph
          · exact .inr hph
          · rename_i hlt
            left
            simp only [List.length_cons]
            omega
      · rename_i hc
        have hwh : ¬ WholeWords x text w (ws.getLast?.getD w) := fun h => hc (hwhole.mpr h)
        unfold EmphClass.partialRun
        simp only
        split
        · rename_i t ht
          split at ht
          · rename_i h1
            obtain ⟨rfl, h2⟩ := (total_one hlen).mp h1
            exact .partLetter hb hws hwh h2 ht
          · cases ht
        · rename_i ht
          have h1 : ws ≠ [] ∨ w.2 ≠ w.1 + 1 ∨ x.emphletter = none := by
            split at ht
            · exact .inr (.inr ht)
            · rename_i h1
              rw [total_one hlen] at h1
              by_cases he : ws = []
              · exact .inr (.inl fun h => h1 ⟨he, h⟩)
              · exact .inl he
          split
          · rename_i t hw
            refine .partWord hb hws hwh h1 hw ?_ ?_
            · intro g1 g2
              have g3 := (sepAt_false x text stop).mpr g2
              simp only [g1, g3, decide_true, Bool.not_false, Bool.and_self, if_true]
              cases x.endemphword <;> rfl
            · intro g
              have : (decide (stop < text.length) && !x.sepAt text stop) = false := by
                rcases g with g | g
                · simp; omega
                · rw [(sepAt_iff ..).mpr g]; simp
              simp [this]
          · rename_i hw
            split
            · rename_i t hp
              refine .partPhrase hb hws hwh h1 hw hp ?_ ?_
              · intro g1
                rw [if_pos g1]
                cases x.endemphphrase <;> rfl
              · intro g
                rw [if_neg (by omega)]
                rfl
            · rename_i hp
              exact .partNone hb hws hwh h1 hw hp

end

/-- The signs of a class: those of its maximal stretches of emphasised text, one after the other. -/
def ClassSigns (x : EmphClass) (text : Text) (spans : List Span) (out : List (Nat × Resolved)) : Prop :=
  ∃ (runs : List (Nat × Nat)) (f : Nat × Nat → List (Nat × Resolved)), (∀ r, r ∈ runs ↔ Stretch (Emphasised x text spans) r.1 r.2) ∧
    runs.Pairwise (fun r s => r.2 < s.1) ∧ (∀ r ∈ runs, RunSigns x text r.1 r.2 (f r)) ∧ out = runs.flatMap f

theorem emphEmit_spec (x : EmphClass) (text : Text) (spans : List Span) {active : List Bool} (ha : x.active text spans = .ok active) :
    ClassSigns x text spans (signsOf (x.emit text active)) := by
  obtain ⟨active', a1, a2, a3⟩ := C22_emphasis_spans x text spans
  rw [ha] at a1
  cases a1
  refine ⟨findSpans id 0 none active, fun r => signsOf (x.emitRun text r.1 r.2), ?_, active_runs.2.2.1, ?_, ?_⟩
  · intro r
    refine runs_stretch active_runs (fun i => ?_) r
    rw [show Emphasised x text spans i ↔ flagAt active i = true from (a3 i).symm]
    unfold flagAt
    simp only [Nat.zero_le, Nat.sub_zero, true_and, id]
    cases active[i]? <;> simp
  · intro r hr
    refine emitRun_spec ?_
    have := (active_runs.1 r hr).2.2.1
    omega
  · unfold EmphClass.emit signsOf
    rw [List.map_flatMap]

theorem events_spec (text : Text) (spans : List Span) : ∀ (classes : List EmphClass) (idx : Nat) es,
    emphEvents text spans idx classes = .ok es → ∃ g : EmphClass → List (Nat × Resolved),
      (∀ x ∈ classes, ClassSigns x text spans (g x)) ∧ es.map (fun e => (e.1.1, e.1.2.1)) = classes.flatMap g := by
  intro classes
  have : ∃ g : EmphClass → List (Nat × Resolved), ∀ x active, x.active text spans = .ok active → g x = signsOf (x.emit text active) :=
    ⟨fun x => match x.active text spans with | .ok a => signsOf (x.emit text a) | .error _ => [], fun x a h => by simp [h]⟩
  obtain ⟨g, hg⟩ := this
  intro idx es h
  refine ⟨g, ?_, ?_⟩
  · intro x _
    obtain ⟨active, a1, -⟩ := C22_emphasis_spans x text spans
    rw [hg x active a1]
    exact emphEmit_spec x text spans a1
  · induction classes generalizing idx es with
    | nil => cases h; rfl
    | cons x xs ih =>
      rw [emphEvents] at h
      split at h
      · cases h
      · next active ha =>
        split at h
        · cases h
        · next es' h' =>
          cases h
          rw [List.map_append, ih _ _ h', List.flatMap_cons, hg x active ha]
          congr 1
          unfold signsOf
          rw [List.map_map]
          rfl

/-- **C29**, which signs: for every text, every list of classes and every list of spans, the emphasis signs are exactly the
signs of the maximal stretches of emphasised text of every class, in the order of their positions. -/
theorem C29_signs (classes : List EmphClass) (text : Text) (spans : List Span) :
    ∃ out g, emphPrecompute classes text spans = .ok out ∧ (∀ x ∈ classes, ClassSigns x text spans (g x)) ∧
      out.Perm (classes.flatMap g) ∧ out.Pairwise (fun a b => a.1 ≤ b.1) := by
  obtain ⟨es, e1, -⟩ := emphEvents_spec text spans classes 0
  obtain ⟨g, h1, h2⟩ := events_spec text spans classes 0 es e1
  refine ⟨_, g, by rw [emphPrecompute, e1], h1, ?_, ?_⟩
  · rw [← h2]
    exact (stableSort_perm _ _).map _
  · rw [List.pairwise_map]
    exact stableSort_sorted respects_emph es

/-! ## The order of signs at one position -/

/-- Sorting puts what belongs at key `p` in the order of the comparison, if the comparison is a total preorder there. -/
theorem insertBack_at {α : Type} {less : α → α → Bool} {key : α → Nat} (hr : Respects less key) (p : Nat) (S : α → Prop)
    (htr : ∀ a b c, S a → S b → S c → key a = p → key b = p → key c = p → less b a = false → less c b = false → less c a = false)
    (hto : ∀ a b, S a → S b → key a = p → key b = p → less a b = true → less b a = false)
    (x : α) (hx : S x) : ∀ (l : List α), (∀ y ∈ l, S y) →
      l.Pairwise (fun a b => key b ≤ key a ∧ (key a = p → key b = p → less a b = false)) →
      (insertBack less x l).Pairwise (fun a b => key b ≤ key a ∧ (key a = p → key b = p → less a b = false))
  | [], _, _ => by simp [insertBack]
  | y :: ys, hS, h => by
    rw [insertBack]
    rw [List.pairwise_cons] at h
    have hy := hS y (by simp)
    split
    · rename_i hl
      have hk : key x ≤ key y := by
        rcases Nat.lt_or_ge (key y) (key x) with hlt | hge
        · rw [(hr x y).2 hlt] at hl; cases hl
        · exact hge
      rw [List.pairwise_cons]
      refine ⟨?_, insertBack_at hr p S htr hto x hx ys (fun z hz => hS z (by simp [hz])) h.2⟩
      intro z hz
      rcases List.mem_cons.1 ((insertBack_perm less x ys).mem_iff.1 hz) with rfl | hz
      · exact ⟨hk, fun h1 h2 => hto _ _ hx hy h2 h1 hl⟩
      · exact h.1 z hz
    · rename_i hl
      have hk : key y ≤ key x := by
        rcases Nat.lt_or_ge (key x) (key y) with hlt | hge
        · exact absurd ((hr x y).1 hlt) hl
        · exact hge
      have hl : less x y = false := by simpa using hl
      rw [List.pairwise_cons, List.pairwise_cons]
      refine ⟨?_, h⟩
      intro z hz
      rcases List.mem_cons.1 hz with rfl | hz'
      · exact ⟨hk, fun _ _ => hl⟩
      · refine ⟨Nat.le_trans (h.1 z hz').1 hk, fun h1 h2 => ?_⟩
        have hky : key y = p := by
          have := (h.1 z hz').1
          omega
        exact htr z y x (hS z (by simp [hz'])) hy hx h2 hky h1 ((h.1 z hz').2 hky h2) hl

theorem stableSort_at {α : Type} {less : α → α → Bool} {key : α → Nat} (hr : Respects less key) (p : Nat) (l : List α)
    (htr : ∀ a b c, a ∈ l → b ∈ l → c ∈ l → key a = p → key b = p → key c = p → less b a = false → less c b = false → less c a = false)
    (hto : ∀ a b, a ∈ l → b ∈ l → key a = p → key b = p → less a b = true → less b a = false) :
    (stableSort less l).Pairwise (fun a b => key a ≤ key b ∧ (key a = p → key b = p → less b a = false)) := by
  unfold stableSort
  rw [List.pairwise_reverse]
  have : ∀ (m acc : List α), (∀ y ∈ m, y ∈ l) → (∀ y ∈ acc, y ∈ l) →
      acc.Pairwise (fun a b => key b ≤ key a ∧ (key a = p → key b = p → less a b = false)) →
      (m.foldl (fun acc x => insertBack less x acc) acc).Pairwise (fun a b => key b ≤ key a ∧ (key a = p → key b = p → less a b = false)) := by
    intro m
    induction m with
    | nil => intro acc _ _ h; exact h
    | cons x m ih =>
      intro acc hm hacc h
      refine ih _ (fun y hy => hm y (by simp [hy])) ?_ (insertBack_at hr p (· ∈ l) htr hto x (hm x (by simp)) acc hacc h)
      intro y hy
      rcases List.mem_cons.mp ((insertBack_perm less x acc).mem_iff.mp hy) with rfl | hy
      · exact hm y (by simp)
      · exact hacc y hy
  refine (this l [] (fun _ h => h) (by simp) List.Pairwise.nil).imp ?_
  intro a b h
  exact ⟨h.1, fun h1 h2 => h.2 h2 h1⟩

/-- In a list with two different elements, one of them is first. -/
theorem two_in_list {α : Type} {a b : α} : ∀ {l : List α}, a ∈ l → b ∈ l → a ≠ b →
    (∃ u v w, l = u ++ a :: v ++ b :: w) ∨ ∃ u v w, l = u ++ b :: v ++ a :: w := by
  intro l ha hb hab
  obtain ⟨u, w, rfl⟩ := List.append_of_mem ha
  rcases List.mem_append.mp hb with hb | hb
  · obtain ⟨u1, u2, rfl⟩ := List.append_of_mem hb
    exact .inr ⟨u1, u2, w, by simp⟩
  · rcases List.mem_cons.mp hb with rfl | hb
    · exact absurd rfl hab
    · obtain ⟨v, w', rfl⟩ := List.append_of_mem hb
      exact .inl ⟨u, v, w', by simp⟩

/-- The first element by the comparison comes first. -/
theorem sorted_first {α : Type} {less : α → α → Bool} {key : α → Nat} {p : Nat} {l : List α}
    (h : l.Pairwise (fun a b => key a ≤ key b ∧ (key a = p → key b = p → less b a = false))) {a b : α} (ha : a ∈ l) (hb : b ∈ l)
    (hka : key a = p) (hkb : key b = p) (hl : less a b = true) (hab : a ≠ b) : ∃ u v w, l = u ++ a :: v ++ b :: w := by
  rcases two_in_list ha hb hab with h' | ⟨u, v, w, rfl⟩
  · exact h'
  · rw [List.append_assoc, List.pairwise_append] at h
    have := (List.pairwise_cons.mp h.2.1).1 a (by simp)
    rw [this.2 hkb hka] at hl
    cases hl

theorem opensAt_iff {x : EmphClass} {text : Text} {start stop p : Nat} (h : start < stop) :
    OpensAt x text start stop p ↔ (x.firstChar text start stop).getD start = p := by
  unfold OpensAt
  cases hf : x.firstChar text start stop with
  | none =>
    have hn := firstChar_none hf
    simp only [Option.getD_none]
    constructor
    · rintro (⟨h1, h2, h3, -⟩ | ⟨rfl, -⟩)
      · exact absurd ((sepAt_iff ..).mp (hn p h1 h2)) h3
      · rfl
    · rintro rfl
      exact .inr ⟨rfl, fun i h1 h2 => (sepAt_iff ..).mp (hn i h1 h2)⟩
  | some s =>
    obtain ⟨a, b, c, d⟩ := firstChar_bounds hf
    simp only [Option.getD_some]
    constructor
    · rintro (⟨h1, h2, h3, h4⟩ | ⟨rfl, h1⟩)
      · rcases Nat.lt_trichotomy s p with hlt | rfl | hlt
        · exact absurd (h4 s a hlt) ((sepAt_false ..).mp c)
        · rfl
        · exact absurd ((sepAt_iff ..).mp (d p h1 hlt)) h3
      · exact absurd (h1 s a b) ((sepAt_false ..).mp c)
    · rintro rfl
      exact .inl ⟨a, b, (sepAt_false ..).mp c, fun i h1 h2 => (sepAt_iff ..).mp (d i h1 h2)⟩

theorem closesAt_iff {x : EmphClass} {text : Text} {start stop p : Nat} (h : start < stop) :
    ClosesAt x text start stop p ↔ (x.lastChar text start stop).getD stop = p := by
  unfold ClosesAt
  cases hf : x.lastChar text start stop with
  | none =>
    have hn := lastChar_none hf
    simp only [Option.getD_none]
    constructor
    · rintro (⟨h1, h2, h3, -⟩ | ⟨rfl, -⟩)
      · exact absurd ((sepAt_iff ..).mp (hn (p - 1) (by omega) (by omega))) h3
      · rfl
    · rintro rfl
      exact .inr ⟨rfl, fun i h1 h2 => (sepAt_iff ..).mp (hn i h1 h2)⟩
  | some s =>
    obtain ⟨a, b, c, d⟩ := lastChar_bounds hf
    simp only [Option.getD_some]
    constructor
    · rintro (⟨h1, h2, h3, h4⟩ | ⟨rfl, h1⟩)
      · rcases Nat.lt_trichotomy s p with hlt | rfl | hlt
        · exact absurd ((sepAt_iff ..).mp (d (p - 1) (by omega) (by omega))) h3
        · rfl
        · exact absurd (h4 (s - 1) (by omega) (by omega)) ((sepAt_false ..).mp c)
      · exact absurd (h1 (s - 1) (by omega) (by omega)) ((sepAt_false ..).mp c)
    · rintro rfl
      exact .inl ⟨a, b, (sepAt_false ..).mp c, fun i h1 h2 => (sepAt_iff ..).mp (d i h1 h2)⟩

/-- Every event is one of a maximal stretch of its class. -/
theorem mem_events (text : Text) (spans : List Span) : ∀ (classes : List EmphClass) (idx : Nat) es,
    emphEvents text spans idx classes = .ok es → ∀ ev, ev ∈ es ↔ ∃ i x s e, classes[i]? = some x ∧
      Stretch (Emphasised x text spans) s e ∧ ev.1 ∈ x.emitRun text s e ∧ ev.2 = idx + i := by
  intro classes
  induction classes with
  | nil => intro idx es h ev; cases h; simp
  | cons x xs ih =>
    intro idx es h ev
    rw [emphEvents] at h
    split at h
    · cases h
    · next active ha =>
      split at h
      · cases h
      · next es' h' =>
        cases h
        obtain ⟨active', a1, -, a3⟩ := C22_emphasis_spans x text spans
        rw [ha] at a1
        cases a1
        have hruns : ∀ r, r ∈ findSpans id 0 none active ↔ Stretch (Emphasised x text spans) r.1 r.2 := by
          intro r
          refine runs_stretch active_runs (fun i => ?_) r
          rw [show Emphasised x text spans i ↔ flagAt active i = true from (a3 i).symm]
          unfold flagAt
          simp only [Nat.zero_le, Nat.sub_zero, true_and, id]
          cases active[i]? <;> simp
        rw [List.mem_append, ih _ _ h' ev]
        constructor
        · rintro (h | ⟨i, y, s, e, h1, h2, h3, h4⟩)
          · obtain ⟨a, h1, rfl⟩ := List.mem_map.mp h
            unfold EmphClass.emit at h1
            obtain ⟨r, hr, h2⟩ := List.mem_flatMap.mp h1
            exact ⟨0, x, r.1, r.2, rfl, (hruns r).mp hr, h2, rfl⟩
          · exact ⟨i + 1, y, s, e, h1, h2, h3, by omega⟩
        · rintro ⟨i, y, s, e, h1, h2, h3, h4⟩
          cases i with
          | zero =>
            cases h1
            left
            refine List.mem_map.mpr ⟨ev.1, ?_, by rw [Prod.ext_iff]; exact ⟨rfl, by simpa using h4.symm⟩⟩
            exact List.mem_flatMap.mpr ⟨(s, e), (hruns (s, e)).mpr h2, h3⟩
          | succ i => exact .inr ⟨i, y, s, e, by simpa using h1, h2, h3, by omega⟩

section

variable {classes : List EmphClass} {text : Text} {spans : List Span} {out : List (Nat × Resolved)}

/-- **C29**, nesting, openers: where several classes open at one position, and no class closes there, the emphasis that lasts longest
opens first; of those that end together, the class defined last.  (Missing: positions where another class closes or which have
signs of words or phrases, see `C29_nesting_wrong`.) -/
theorem C29_openers_nested_partial (hout : emphPrecompute classes text spans = .ok out) (p : Nat)
    (honly : ∀ z ∈ classes, z.begemph ≠ none ∧ ∀ s e, Stretch (Emphasised z text spans) s e → ¬ ClosesAt z text s e p)
    (i j : Nat) (x y : EmphClass) (hx : classes[i]? = some x) (hy : classes[j]? = some y) (bx by' : Resolved)
    (hbx : x.begemph = some bx) (hby : y.begemph = some by') (s₁ e₁ s₂ e₂ : Nat) (h₁ : Stretch (Emphasised x text spans) s₁ e₁)
    (h₂ : Stretch (Emphasised y text spans) s₂ e₂) (o₁ : OpensAt x text s₁ e₁ p) (o₂ : OpensAt y text s₂ e₂ p)
    (hlonger : e₂ < e₁ ∨ e₂ = e₁ ∧ j < i) : ∃ a b c, out = a ++ (p, bx) :: b ++ (p, by') :: c := by
  unfold emphPrecompute at hout
  split at hout
  · cases hout
  next es hes =>
  cases hout
  have hmem := mem_events text spans classes 0 es hes
  have hopn : ∀ ev ∈ es, ev.1.1 = p → ∃ re, ev.1.2.2 = .opn re := by
    intro ev hev hp
    obtain ⟨k, z, s, e, g1, g2, g3, -⟩ := (hmem ev).mp hev
    obtain ⟨hz, hcl⟩ := honly z (List.mem_of_getElem? g1)
    unfold EmphClass.emitRun at g3
    split at g3
    · rcases List.mem_cons.mp g3 with g3 | g3
      · exact ⟨_, by rw [g3]⟩
      · obtain ⟨e', -, g4⟩ := toList_map_mem g3
        refine absurd ((closesAt_iff g2.nonempty).mpr ?_) (hcl s e g2)
        rw [← hp, g4]
    · exact absurd ‹_› hz
  have hless : ∀ a b : EmphEvent × Nat, a.1.1 = p → b.1.1 = p → ∀ ra rb, a.1.2.2 = .opn ra → b.1.2.2 = .opn rb →
      emphLess a b = (decide (rb < ra) || (rb == ra && decide (b.2 < a.2))) := by
    intro a b ha hb ra rb hra hrb
    unfold emphLess
    rw [if_neg (by rw [ha, hb]; simp), hra, hrb]
  have hsort := stableSort_at respects_emph p es (by
    intro a b c ha hb hc pa pb pc g1 g2
    obtain ⟨ra, ha⟩ := hopn a ha pa
    obtain ⟨rb, hb⟩ := hopn b hb pb
    obtain ⟨rc, hc⟩ := hopn c hc pc
    rw [hless b a pb pa rb ra hb ha] at g1
    rw [hless c b pc pb rc rb hc hb] at g2
    rw [hless c a pc pa rc ra hc ha]
    simp only [Bool.or_eq_false_iff, Bool.and_eq_false_iff, decide_eq_false_iff_not, beq_eq_false_iff_ne] at g1 g2 ⊢
    omega) (by
    intro a b ha hb pa pb g1
    obtain ⟨ra, ha⟩ := hopn a ha pa
    obtain ⟨rb, hb⟩ := hopn b hb pb
    rw [hless a b pa pb ra rb ha hb] at g1
    rw [hless b a pb pa rb ra hb ha]
    simp only [Bool.or_eq_true, Bool.and_eq_true, decide_eq_true_eq, beq_iff_eq] at g1
    simp only [Bool.or_eq_false_iff, Bool.and_eq_false_iff, decide_eq_false_iff_not, beq_eq_false_iff_ne]
    omega)
  have ma : ((p, bx, EmitKind.opn e₁), i) ∈ stableSort emphLess es := by
    rw [mem_stableSort, hmem]
    refine ⟨i, x, s₁, e₁, hx, h₁, ?_, by simp⟩
    unfold EmphClass.emitRun
    rw [hbx]
    simp [(opensAt_iff h₁.nonempty).mp o₁]
  have mb : ((p, by', EmitKind.opn e₂), j) ∈ stableSort emphLess es := by
    rw [mem_stableSort, hmem]
    refine ⟨j, y, s₂, e₂, hy, h₂, ?_, by simp⟩
    unfold EmphClass.emitRun
    rw [hby]
    simp [(opensAt_iff h₂.nonempty).mp o₂]
  obtain ⟨u, v, w, huvw⟩ := sorted_first hsort ma mb rfl rfl (by
    rw [hless _ _ rfl rfl e₁ e₂ rfl rfl]
    simp
    omega) (by
    intro h
    simp only [Prod.mk.injEq, EmitKind.opn.injEq] at h
    omega)
  rw [huvw]
  exact ⟨u.map fun e => (e.1.1, e.1.2.1), v.map fun e => (e.1.1, e.1.2.1), w.map fun e => (e.1.1, e.1.2.1), by simp⟩

/-- **C29**, nesting, closers: where several classes close at one position, and no class opens there, the emphasis that opened last
closes first; of those that opened together, the class defined first.  (Missing: as above.) -/
theorem C29_closers_nested_partial (hout : emphPrecompute classes text spans = .ok out) (p : Nat)
    (honly : ∀ z ∈ classes, z.begemph ≠ none ∧ ∀ s e, Stretch (Emphasised z text spans) s e → ¬ OpensAt z text s e p)
    (i j : Nat) (x y : EmphClass) (hx : classes[i]? = some x) (hy : classes[j]? = some y) (ex ey : Resolved)
    (hex : x.endemph = some ex) (hey : y.endemph = some ey) (s₁ e₁ s₂ e₂ : Nat) (h₁ : Stretch (Emphasised x text spans) s₁ e₁)
    (h₂ : Stretch (Emphasised y text spans) s₂ e₂) (c₁ : ClosesAt x text s₁ e₁ p) (c₂ : ClosesAt y text s₂ e₂ p)
    (p₁ p₂ : Nat) (o₁ : OpensAt x text s₁ e₁ p₁) (o₂ : OpensAt y text s₂ e₂ p₂)
    (hlater : p₂ < p₁ ∨ p₂ = p₁ ∧ i < j) : ∃ a b c, out = a ++ (p, ex) :: b ++ (p, ey) :: c := by
  unfold emphPrecompute at hout
  split at hout
  · cases hout
  next es hes =>
  cases hout
  have hmem := mem_events text spans classes 0 es hes
  have hopn : ∀ ev ∈ es, ev.1.1 = p → ∃ re, ev.1.2.2 = .close re := by
    intro ev hev hp
    obtain ⟨k, z, s, e, g1, g2, g3, -⟩ := (hmem ev).mp hev
    obtain ⟨hz, hcl⟩ := honly z (List.mem_of_getElem? g1)
    unfold EmphClass.emitRun at g3
    split at g3
    · rcases List.mem_cons.mp g3 with g3 | g3
      · refine absurd ((opensAt_iff g2.nonempty).mpr ?_) (hcl s e g2)
        rw [← hp, g3]
      · obtain ⟨e', -, g4⟩ := toList_map_mem g3
        exact ⟨_, by rw [g4]⟩
    · exact absurd ‹_› hz
  have hless : ∀ a b : EmphEvent × Nat, a.1.1 = p → b.1.1 = p → ∀ ra rb, a.1.2.2 = .close ra → b.1.2.2 = .close rb →
      emphLess a b = (decide (rb < ra) || (rb == ra && decide (a.2 < b.2))) := by
    intro a b ha hb ra rb hra hrb
    unfold emphLess
    rw [if_neg (by rw [ha, hb]; simp), hra, hrb]
  have hsort := stableSort_at respects_emph p es (by
    intro a b c ha hb hc pa pb pc g1 g2
    obtain ⟨ra, ha⟩ := hopn a ha pa
    obtain ⟨rb, hb⟩ := hopn b hb pb
    obtain ⟨rc, hc⟩ := hopn c hc pc
    rw [hless b a pb pa rb ra hb ha] at g1
    rw [hless c b pc pb rc rb hc hb] at g2
    rw [hless c a pc pa rc ra hc ha]
    simp only [Bool.or_eq_false_iff, Bool.and_eq_false_iff, decide_eq_false_iff_not, beq_eq_false_iff_ne] at g1 g2 ⊢
    omega) (by
    intro a b ha hb pa pb g1
    obtain ⟨ra, ha⟩ := hopn a ha pa
    obtain ⟨rb, hb⟩ := hopn b hb pb
    rw [hless a b pa pb ra rb ha hb] at g1
    rw [hless b a pb pa rb ra hb ha]
    simp only [Bool.or_eq_true, Bool.and_eq_true, decide_eq_true_eq, beq_iff_eq] at g1
    simp only [Bool.or_eq_false_iff, Bool.and_eq_false_iff, decide_eq_false_iff_not, beq_eq_false_iff_ne]
    omega)
  have close_mem : ∀ (k : Nat) (z : EmphClass) (t : Resolved) (s e q : Nat), classes[k]? = some z → z.endemph = some t →
      Stretch (Emphasised z text spans) s e → ClosesAt z text s e p → OpensAt z text s e q →
      ((p, t, EmitKind.close q), k) ∈ stableSort emphLess es := by
    intro k z t s e q g1 g2 g3 g4 g5
    rw [mem_stableSort, hmem]
    refine ⟨k, z, s, e, g1, g3, ?_, by simp⟩
    unfold EmphClass.emitRun
    cases hz : z.begemph with
    | none => exact absurd hz (honly z (List.mem_of_getElem? g1)).1
    | some b => simp [g2, (opensAt_iff g3.nonempty).mp g5, (closesAt_iff g3.nonempty).mp g4]
  obtain ⟨u, v, w, huvw⟩ := sorted_first hsort (close_mem i x ex s₁ e₁ p₁ hx hex h₁ c₁ o₁) (close_mem j y ey s₂ e₂ p₂ hy hey h₂ c₂ o₂) rfl rfl (by
    rw [hless _ _ rfl rfl p₁ p₂ rfl rfl]
    simp
    omega) (by
    intro h
    simp only [Prod.mk.injEq, EmitKind.close.injEq] at h
    omega)
  rw [huvw]
  exact ⟨u.map fun e => (e.1.1, e.1.2.1), v.map fun e => (e.1.1, e.1.2.1), w.map fun e => (e.1.1, e.1.2.1), by simp⟩

end

/-! ## Concrete cases -/

/-- Three classes on nested texts: the longest emphasis opens first and closes last. -/
example : (emphPrecompute [modeClass "italic" "i" "I", modeClass "bold" "b" "B", modeClass "underline" "u" "U"] "abcdef".toList
      [⟨"bold".toList, 0, 4⟩, ⟨"italic".toList, 0, 2⟩, ⟨"underline".toList, 2, 4⟩]).toOption.map (·.map fun q => (q.1, q.2.output)) =
    some [(0, ['b']), (0, ['i']), (2, ['I']), (2, ['u']), (4, ['U']), (4, ['B'])] := by
  decide +kernel

/-- Words, letters, phrases and parts of words. -/
example : (emphPrecompute [{ wordClass "italic" with emphletter := some (indication ['l'] ⟨.other, 0⟩) }] "a bc def ghi".toList
      [⟨"italic".toList, 0, 1⟩, ⟨"italic".toList, 2, 4⟩, ⟨"italic".toList, 6, 7⟩, ⟨"italic".toList, 10, 12⟩]).toOption.map
        (·.map fun q => (q.1, q.2.output)) =
    some [(0, ['l']), (2, ['w']), (6, ['l']), (10, ['w'])] := by
  decide +kernel

/-- **C29**, finding: the comparison the signs are sorted with is no total order.  Where one class closes and two others open, the
closer counts as equal to both openers, so the openers stay in the order of the classes: `bold` (0–2 is `underline`) opens before
`italic` although it closes before it too. -/
theorem C29_nesting_wrong :
    (emphPrecompute [modeClass "bold" "b" "B", modeClass "underline" "u" "U", modeClass "italic" "i" "I"] "abcdef".toList
      [⟨"underline".toList, 0, 2⟩, ⟨"bold".toList, 2, 4⟩, ⟨"italic".toList, 2, 6⟩]).toOption.map (·.map fun q => (q.1, q.2.output)) =
    some [(0, ['u']), (2, ['b']), (2, ['U']), (2, ['i']), (4, ['B']), (6, ['I'])] ∧
    ∃ a b c : (EmphEvent × Nat) × (EmphEvent × Nat), (emphEvents "abcdef".toList [⟨"underline".toList, 0, 2⟩, ⟨"bold".toList, 2, 4⟩, ⟨"italic".toList, 2, 6⟩] 0
        [modeClass "bold" "b" "B", modeClass "underline" "u" "U", modeClass "italic" "i" "I"]).toOption = some [a.1, a.2, b.1, b.2, c.1, c.2] ∧
      emphLess a.1 b.2 = false ∧ emphLess b.2 a.1 = false ∧ emphLess b.2 c.1 = false ∧ emphLess c.1 b.2 = false ∧
      emphLess c.1 a.1 = true := by
  refine ⟨by decide +kernel, ?_⟩
  refine ⟨(((2, indication ['b'] ⟨.other, 0⟩, .opn 4), 0), ((4, indication ['B'] ⟨.other, 0⟩, .close 2), 0)),
    (((0, indication ['u'] ⟨.other, 0⟩, .opn 2), 1), ((2, indication ['U'] ⟨.other, 0⟩, .close 0), 1)),
    (((2, indication ['i'] ⟨.other, 0⟩, .opn 6), 2), ((6, indication ['I'] ⟨.other, 0⟩, .close 2), 2)), ?_, by decide +kernel⟩
  decide +kernel

end Louis
