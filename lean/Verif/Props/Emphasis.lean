import Verif.Lemmas.Sort
import Verif.Props.Spans

/-!
# C29: emphasis indicators
-/

namespace Louis

open Regexp (Fault)

/-! ## Positions -/

theorem firstChar_bounds {x : EmphClass} {chars : Text} {start stop i : Nat} (h : x.firstChar chars start stop = some i) :
    start ≤ i ∧ i < stop ∧ x.sepAt chars i = false ∧ ∀ j, start ≤ j → j < i → x.sepAt chars j = true := by
  unfold EmphClass.firstChar at h
  have h1 := List.mem_of_find?_eq_some h
  have h2 := List.find?_some h
  rw [List.mem_range'_1] at h1
  refine ⟨h1.1, by omega, by simpa using h2, ?_⟩
  intro j hj hji
  rw [List.find?_range'_eq_some] at h
  have := h.2.2 j hj hji
  simpa using this

theorem lastChar_bounds {x : EmphClass} {chars : Text} {start stop e : Nat} (h : x.lastChar chars start stop = some e) :
    start < e ∧ e ≤ stop ∧ x.sepAt chars (e - 1) = false ∧ ∀ j, e ≤ j → j < stop → x.sepAt chars j = true := by
  unfold EmphClass.lastChar at h
  rw [Option.map_eq_some_iff] at h
  obtain ⟨i, hi, rfl⟩ := h
  have h1 := List.mem_of_find?_eq_some hi
  have h2 := List.find?_some hi
  rw [List.mem_reverse, List.mem_range'_1] at h1
  refine ⟨by omega, by omega, by simpa using h2, ?_⟩
  intro j hj hjs
  rw [List.find?_eq_some_iff_append] at hi
  obtain ⟨-, a, b, hab, ha⟩ := hi
  have hjm : j ∈ (List.range' start (stop - start)).reverse := by
    rw [List.mem_reverse, List.mem_range'_1]; omega
  rw [hab] at hjm
  have hsort : (List.range' start (stop - start)).reverse.Pairwise (fun u v => v < u) := by
    rw [List.pairwise_reverse]; exact List.pairwise_lt_range'
  rw [hab] at hsort
  rcases List.mem_append.1 hjm with hja | hjb
  · simpa using ha j hja
  · exfalso
    rcases List.mem_cons.1 hjb with rfl | hjb
    · omega
    · have := (List.pairwise_append.1 hsort).2.1
      rw [List.pairwise_cons] at this
      have := this.1 j hjb
      omega

theorem firstChar_none {x : EmphClass} {chars : Text} {start stop : Nat} (h : x.firstChar chars start stop = none) :
    ∀ j, start ≤ j → j < stop → x.sepAt chars j = true := by
  intro j h1 h2
  unfold EmphClass.firstChar at h
  rw [List.find?_eq_none] at h
  simpa using h j (by rw [List.mem_range'_1]; omega)

theorem lastChar_none {x : EmphClass} {chars : Text} {start stop : Nat} (h : x.lastChar chars start stop = none) :
    ∀ j, start ≤ j → j < stop → x.sepAt chars j = true := by
  intro j h1 h2
  unfold EmphClass.lastChar at h
  rw [Option.map_eq_none_iff, List.find?_eq_none] at h
  simpa using h j (by rw [List.mem_reverse, List.mem_range'_1]; omega)

theorem segments_bounds {x : EmphClass} {chars : Text} {start stop : Nat} (hs : stop ≤ chars.length) :
    ∀ w ∈ x.segments chars start stop, start ≤ w.1 ∧ w.1 < w.2 ∧ w.2 ≤ stop := by
  intro w hw
  obtain ⟨h, -⟩ := C26_maximal_runs (fun c => !x.isSep c) chars start stop
  obtain ⟨h1, h2, h3, -⟩ := h w hw
  simp only [List.length_drop, List.length_take] at h3
  omega

theorem singleWord_pos {x : EmphClass} {w : Nat × Nat} : ∀ ev ∈ x.singleWord w, ev.1 = w.1 := by
  intro ev hev
  unfold EmphClass.singleWord at hev
  split at hev
  · simp at hev; rw [hev]
  · cases hb : x.begemphword with
    | none => simp [hb] at hev
    | some t => simp [hb] at hev; rw [hev]

theorem getLast_mem {α : Type} (first : α) (others : List α) : others.getLast?.getD first ∈ first :: others := by
  cases h : others.getLast? with
  | none => simp
  | some y => simp; exact .inr (List.mem_of_getLast? h)

theorem toList_map_mem {α β : Type} {o : Option α} {f : α → β} {y : β} (h : y ∈ (o.map f).toList) : ∃ a, o = some a ∧ y = f a := by
  cases o with
  | none => simp at h
  | some a => simp at h; exact ⟨a, rfl, h⟩

/-- Every event of a run lies in the run or right at its end. -/
theorem emitRun_pos {x : EmphClass} {chars : Text} {start stop : Nat} (h1 : start < stop) (h2 : stop ≤ chars.length) :
    ∀ ev ∈ x.emitRun chars start stop, start ≤ ev.1 ∧ ev.1 ≤ stop := by
  intro ev hev
  have hfirst : start ≤ (x.firstChar chars start stop).getD start ∧ (x.firstChar chars start stop).getD start < stop := by
    cases h : x.firstChar chars start stop with
    | none => simpa using h1
    | some i => obtain ⟨a, b, -⟩ := firstChar_bounds h; exact ⟨a, b⟩
  have hlast : start < (x.lastChar chars start stop).getD stop ∧ (x.lastChar chars start stop).getD stop ≤ stop := by
    cases h : x.lastChar chars start stop with
    | none => simpa using h1
    | some i => obtain ⟨a, b, -⟩ := lastChar_bounds h; exact ⟨a, b⟩
  unfold EmphClass.emitRun at hev
  split at hev
  · simp only [List.mem_cons] at hev
    rcases hev with rfl | hev
    · simp only; omega
    · obtain ⟨e, -, rfl⟩ := toList_map_mem hev
      simp only; omega
  · have hseg := segments_bounds (x := x) (start := start) h2
    split at hev
    · cases hev
    · next first others hs =>
      rw [hs] at hseg
      have hw : ∀ w ∈ first :: others, ∀ ev ∈ x.singleWord w, start ≤ ev.1 ∧ ev.1 ≤ stop := by
        intro w hw ev hev
        have := hseg w hw
        rw [singleWord_pos ev hev]; omega
      have hf := hseg first (by simp)
      have hl := hseg _ (getLast_mem first others)
      simp only at hev
      split at hev
      · unfold EmphClass.cleanWords at hev
        simp only at hev
        split at hev
        · rw [List.mem_cons] at hev
          rcases hev with rfl | hev
          · simp only; omega
          · split at hev
            · exact hw _ (getLast_mem first others) ev hev
            · obtain ⟨e, -, rfl⟩ := toList_map_mem hev
              simp only; omega
        · rw [List.mem_flatMap] at hev
          obtain ⟨w, hwm, hev⟩ := hev
          exact hw w hwm ev hev
      · unfold EmphClass.partialRun at hev
        simp only at hev
        split at hev
        · simp only [List.mem_singleton] at hev; rw [hev]; simp only; omega
        · split at hev
          · rw [List.mem_cons] at hev
            rcases hev with rfl | hev
            · simp only; omega
            · split at hev
              · obtain ⟨e, -, rfl⟩ := toList_map_mem hev
                simp only; omega
              · cases hev
          · split at hev
            · rw [List.mem_cons] at hev
              rcases hev with rfl | hev
              · simp only; omega
              · split at hev
                · obtain ⟨e, -, rfl⟩ := toList_map_mem hev
                  simp only; omega
                · cases hev
            · cases hev

theorem active_runs {active : List Bool} : RunsOf id active 0 (findSpans id 0 none active) :=
  findSpans_spec id active 0 none (by intro s hs; cases hs)

theorem emit_pos {x : EmphClass} {chars : Text} {active : List Bool} (h : active.length = chars.length) :
    ∀ ev ∈ x.emit chars active, ev.1 ≤ chars.length := by
  intro ev hev
  unfold EmphClass.emit at hev
  rw [List.mem_flatMap] at hev
  obtain ⟨r, hr, hev⟩ := hev
  obtain ⟨-, h1, h2, -⟩ := active_runs.1 r hr
  have := emitRun_pos h1 (by omega) ev hev
  omega

/-- The events of all classes, class by class. -/
theorem emphEvents_spec (chars : Text) (spans : List Span) : ∀ (classes : List EmphClass) (idx : Nat),
    ∃ es, emphEvents chars spans idx classes = .ok es ∧ ∀ ev ∈ es, ev.1.1 ≤ chars.length := by
  intro classes
  induction classes with
  | nil => intro idx; exact ⟨[], rfl, by simp⟩
  | cons x xs ih =>
    intro idx
    obtain ⟨active, a1, a2, -⟩ := C22_emphasis_spans x chars spans
    obtain ⟨es, e1, e2⟩ := ih (idx + 1)
    refine ⟨(x.emit chars active).map (·, idx) ++ es, by rw [emphEvents, a1]; simp only [e1], ?_⟩
    intro ev hev
    rcases List.mem_append.1 hev with hev | hev
    · obtain ⟨e, he, rfl⟩ := List.mem_map.1 hev
      exact emit_pos a2 e he
    · exact e2 ev hev

/-- **C29**, positions: for every text, every list of classes and every list of spans the emphasis indicators are computed
without panicking, lie in the text or right at its end, and come in the order of their positions. -/
theorem C29_positions (classes : List EmphClass) (input : Text) (spans : List Span) :
    ∃ out, emphPrecompute classes input spans = .ok out ∧ (∀ q ∈ out, q.1 ≤ input.length) ∧
      out.Pairwise (fun a b => a.1 ≤ b.1) := by
  obtain ⟨es, e1, e2⟩ := emphEvents_spec input spans classes 0
  refine ⟨_, by rw [emphPrecompute, e1], ?_, ?_⟩
  · intro q hq
    obtain ⟨e, he, rfl⟩ := List.mem_map.1 hq
    exact e2 e ((mem_stableSort _ _ _).1 he)
  · rw [List.pairwise_map]
    exact stableSort_sorted respects_emph es

/-! ## Openers and closers of one class -/

/-- The indicators of a class. -/
def EmphClass.indicators (x : EmphClass) : List Resolved :=
  x.emphletter.toList ++ x.begemph.toList ++ x.endemph.toList ++ x.begemphword.toList ++ x.endemphword.toList ++
    x.begemphphrase.toList ++ x.endemphphrase.toList

theorem singleWord_ind {x : EmphClass} {w : Nat × Nat} : ∀ ev ∈ x.singleWord w, ev.2.1 ∈ x.indicators := by
  intro ev hev
  unfold EmphClass.singleWord at hev
  split at hev
  · next t ht =>
    simp at hev; subst hev
    split at ht
    · simp [EmphClass.indicators, ht]
    · cases ht
  · obtain ⟨t, ht, rfl⟩ := toList_map_mem hev
    simp [EmphClass.indicators, ht]

theorem emitRun_ind {x : EmphClass} {chars : Text} {start stop : Nat} :
    ∀ ev ∈ x.emitRun chars start stop, ev.2.1 ∈ x.indicators := by
  intro ev hev
  unfold EmphClass.emitRun at hev
  split at hev
  · next b hb =>
    simp only [List.mem_cons] at hev
    rcases hev with rfl | hev
    · simp [EmphClass.indicators, hb]
    · obtain ⟨e, he, rfl⟩ := toList_map_mem hev
      simp [EmphClass.indicators, he]
  · split at hev
    · cases hev
    · next first others hs =>
      simp only at hev
      split at hev
      · unfold EmphClass.cleanWords at hev
        simp only at hev
        split at hev
        · next t ht =>
          have ht : x.begemphphrase = some t := by
            split at ht
            · exact ht
            · cases ht
          rw [List.mem_cons] at hev
          rcases hev with rfl | hev
          · simp [EmphClass.indicators, ht]
          · split at hev
            · exact singleWord_ind ev hev
            · obtain ⟨e, he, rfl⟩ := toList_map_mem hev
              simp [EmphClass.indicators, he]
        · rw [List.mem_flatMap] at hev
          obtain ⟨w, hwm, hev⟩ := hev
          exact singleWord_ind ev hev
      · unfold EmphClass.partialRun at hev
        simp only at hev
        split at hev
        · next t ht =>
          have ht : x.emphletter = some t := by
            split at ht
            · exact ht
            · cases ht
          simp only [List.mem_singleton] at hev; rw [hev]; simp [EmphClass.indicators, ht]
        · split at hev
          · next t ht =>
            rw [List.mem_cons] at hev
            rcases hev with rfl | hev
            · simp [EmphClass.indicators, ht]
            · split at hev
              · obtain ⟨e, he, rfl⟩ := toList_map_mem hev
                simp [EmphClass.indicators, he]
              · cases hev
          · split at hev
            · next t ht =>
              rw [List.mem_cons] at hev
              rcases hev with rfl | hev
              · simp [EmphClass.indicators, ht]
              · split at hev
                · obtain ⟨e, he, rfl⟩ := toList_map_mem hev
                  simp [EmphClass.indicators, he]
                · cases hev
            · cases hev

theorem emit_ind {x : EmphClass} {chars : Text} {active : List Bool} : ∀ ev ∈ x.emit chars active, ev.2.1 ∈ x.indicators := by
  intro ev hev
  unfold EmphClass.emit at hev
  rw [List.mem_flatMap] at hev
  obtain ⟨r, -, hev⟩ := hev
  exact emitRun_ind ev hev

theorem emphEvents_ind (chars : Text) (spans : List Span) : ∀ (classes : List EmphClass) (idx : Nat) es,
    emphEvents chars spans idx classes = .ok es → ∀ ev ∈ es, ∃ x ∈ classes, ev.1.2.1 ∈ x.indicators := by
  intro classes
  induction classes with
  | nil => intro idx es e; cases e; simp
  | cons x xs ih =>
    intro idx es e ev hev
    rw [emphEvents] at e
    split at e
    · cases e
    · split at e
      · cases e
      · next es' e' =>
        cases e
        rcases List.mem_append.1 hev with hev | hev
        · obtain ⟨a, ha, rfl⟩ := List.mem_map.1 hev
          exact ⟨x, by simp, emit_ind a ha⟩
        · obtain ⟨y, hy, h⟩ := ih _ _ e' ev hev
          exact ⟨y, by simp [hy], h⟩

/-- The events of a list of classes around one class. -/
theorem emphEvents_split (chars : Text) (spans : List Span) (x : EmphClass) (post : List EmphClass) : ∀ (pre : List EmphClass) (idx : Nat) es,
    emphEvents chars spans idx (pre ++ x :: post) = .ok es →
    ∃ es₁ es₂ active k, es = es₁ ++ (x.emit chars active).map (·, k) ++ es₂ ∧ x.active chars spans = .ok active ∧
      (∀ ev ∈ es₁, ∃ y ∈ pre, ev.1.2.1 ∈ y.indicators) ∧ (∀ ev ∈ es₂, ∃ y ∈ post, ev.1.2.1 ∈ y.indicators) := by
  intro pre
  induction pre with
  | nil =>
    intro idx es e
    rw [List.nil_append, emphEvents] at e
    split at e
    · cases e
    · next active ha =>
      split at e
      · cases e
      · next es' e' =>
        cases e
        exact ⟨[], es', active, idx, by simp, ha, by simp, emphEvents_ind chars spans post _ _ e'⟩
  | cons y pre ih =>
    intro idx es e
    rw [List.cons_append, emphEvents] at e
    split at e
    · cases e
    · next active ha =>
      split at e
      · cases e
      · next es' e' =>
        cases e
        obtain ⟨es₁, es₂, act, k, rfl, h1, h2, h3⟩ := ih _ _ e'
        refine ⟨(y.emit chars active).map (·, idx) ++ es₁, es₂, act, k, by simp, h1, ?_, h3⟩
        intro ev hev
        rcases List.mem_append.1 hev with hev | hev
        · obtain ⟨a, ha, rfl⟩ := List.mem_map.1 hev
          exact ⟨y, by simp, emit_ind a ha⟩
        · obtain ⟨z, hz, h⟩ := h2 ev hev
          exact ⟨z, by simp [hz], h⟩

/-- Character `p` of the text is emphasised in the class `x`. -/
def Emphasised (x : EmphClass) (input : Text) (spans : List Span) (p : Nat) : Prop :=
  SpanCovers x.name spans input.length p ∧ ¬ ∃ c, input[p]? = some c ∧ c ∈ x.noemph

/-- The brackets: where the class opens and closes in a run. -/
def bracket (x : EmphClass) (chars : Text) (r : Nat × Nat) : Nat × Nat :=
  ((x.firstChar chars r.1 r.2).getD r.1, (x.lastChar chars r.1 r.2).getD r.2)

theorem bracket_bounds {x : EmphClass} {chars : Text} {r : Nat × Nat} (h : r.1 < r.2) :
    r.1 ≤ (bracket x chars r).1 ∧ (bracket x chars r).1 < (bracket x chars r).2 ∧ (bracket x chars r).2 ≤ r.2 ∧
    ∀ j, r.1 ≤ j → j < r.2 → x.sepAt chars j = false → (bracket x chars r).1 ≤ j ∧ j < (bracket x chars r).2 := by
  unfold bracket
  cases hf : x.firstChar chars r.1 r.2 with
  | none =>
    have hn := firstChar_none hf
    cases hl : x.lastChar chars r.1 r.2 with
    | none =>
      refine ⟨by simp, by simpa using h, by simp, ?_⟩
      intro j h1 h2 h3
      rw [hn j h1 h2] at h3; cases h3
    | some e =>
      obtain ⟨a, b, c, -⟩ := lastChar_bounds hl
      have := hn (e - 1) (by omega) (by omega)
      rw [c] at this; cases this
  | some s =>
    obtain ⟨a, b, c, d⟩ := firstChar_bounds hf
    cases hl : x.lastChar chars r.1 r.2 with
    | none =>
      have := lastChar_none hl s a b
      rw [c] at this; cases this
    | some e =>
      obtain ⟨a', b', c', d'⟩ := lastChar_bounds hl
      have hse : s < e := by
        rcases Nat.lt_or_ge s e with h | h
        · exact h
        · have := d' s h b
          rw [c] at this; cases this
      refine ⟨a, hse, b', ?_⟩
      intro j h1 h2 h3
      simp only [Option.getD_some]
      refine ⟨?_, ?_⟩
      · rcases Nat.lt_or_ge j s with h | h
        · rw [d j h1 h] at h3; cases h3
        · exact h
      · rcases Nat.lt_or_ge j e with h | h
        · exact h
        · rw [d' j h h2] at h3; cases h3

/-- **C29**, brackets: for a class with an opening and a closing indicator that no other class uses, the openers and closers
in the output alternate, beginning with an opener and ending with a closer, at strictly increasing positions; and a character
of the text that is not a separator lies between an opener and its closer exactly if it is emphasised. -/
theorem C29_openers_and_closers_alternate (pre post : List EmphClass) (x : EmphClass) (b e : Resolved) (hb : x.begemph = some b)
    (he : x.endemph = some e) (hother : ∀ y ∈ pre ++ post, b ∉ y.indicators ∧ e ∉ y.indicators) (input : Text)
    (spans : List Span) (out : List (Nat × Resolved)) (hout : emphPrecompute (pre ++ x :: post) input spans = .ok out) :
    ∃ brackets : List (Nat × Nat),
      out.filter (fun q => q.2 == b || q.2 == e) = brackets.flatMap (fun r => [(r.1, b), (r.2, e)]) ∧
      (∀ r ∈ brackets, r.1 < r.2 ∧ r.2 ≤ input.length) ∧ brackets.Pairwise (fun r s => r.2 < s.1) ∧
      ∀ p c, input[p]? = some c → x.isSep c = false →
        ((∃ r ∈ brackets, r.1 ≤ p ∧ p < r.2) ↔ Emphasised x input spans p) := by
  unfold emphPrecompute at hout
  split at hout
  · cases hout
  next es hes =>
  cases hout
  obtain ⟨es₁, es₂, active, k, rfl, hact, h1, h2⟩ := emphEvents_split input spans x post pre 0 es hes
  obtain ⟨active', a1, a2, a3⟩ := C22_emphasis_spans x input spans
  rw [hact] at a1
  cases a1
  obtain ⟨r1, r2, r3, r4⟩ := active_runs (active := active)
  generalize hruns : findSpans id 0 none active = runs at r1 r2 r3 r4
  have hbr : ∀ r ∈ runs, _ := fun r hr => bracket_bounds (x := x) (chars := input) (r1 r hr).2.1
  refine ⟨runs.map (bracket x input), ?_, ?_, ?_, ?_⟩
  · -- the filtered output
    have hemit : x.emit input active = runs.flatMap fun r =>
        [((bracket x input r).1, b, EmitKind.opn r.2), ((bracket x input r).2, e, EmitKind.close (bracket x input r).1)] := by
      unfold EmphClass.emit
      rw [hruns]
      congr 1
      funext r
      simp [EmphClass.emitRun, hb, he, bracket]
    let Q : EmphEvent × Nat → Bool := fun ev => ev.1.2.1 == b || ev.1.2.1 == e
    have hQ1 : es₁.filter Q = [] := by
      rw [List.filter_eq_nil_iff]
      intro ev hev
      obtain ⟨y, hy, hi⟩ := h1 ev hev
      have := hother y (by simp [hy])
      simp only [Q, Bool.or_eq_true, beq_iff_eq]
      rintro (h | h)
      · exact this.1 (h ▸ hi)
      · exact this.2 (h ▸ hi)
    have hQ2 : es₂.filter Q = [] := by
      rw [List.filter_eq_nil_iff]
      intro ev hev
      obtain ⟨y, hy, hi⟩ := h2 ev hev
      have := hother y (by simp [hy])
      simp only [Q, Bool.or_eq_true, beq_iff_eq]
      rintro (h | h)
      · exact this.1 (h ▸ hi)
      · exact this.2 (h ▸ hi)
    have hQ3 : ((x.emit input active).map (·, k)).filter Q = (x.emit input active).map (·, k) := by
      rw [List.filter_eq_self]
      intro ev hev
      obtain ⟨a, ha, rfl⟩ := List.mem_map.1 hev
      rw [hemit, List.mem_flatMap] at ha
      obtain ⟨r, -, ha⟩ := ha
      simp only [List.mem_cons, List.not_mem_nil, or_false] at ha
      rcases ha with rfl | rfl <;> simp [Q]
    have hperm : ((stableSort emphLess (es₁ ++ (x.emit input active).map (·, k) ++ es₂)).filter Q).Perm
        ((x.emit input active).map (·, k)) := by
      refine ((stableSort_perm emphLess _).filter Q).trans ?_
      rw [List.filter_append, List.filter_append, hQ1, hQ2, hQ3]
      simp
    have hsorted := (stableSort_sorted respects_emph (es₁ ++ (x.emit input active).map (·, k) ++ es₂)).filter Q
    have hstrict : ((x.emit input active).map (·, k)).Pairwise (fun a b : EmphEvent × Nat => a.1.1 < b.1.1) := by
      rw [List.pairwise_map, hemit, List.pairwise_flatMap]
      refine ⟨?_, ?_⟩
      · intro r hr
        have := (hbr r hr).2.1
        simpa using this
      · refine List.Pairwise.imp_of_mem ?_ r3
        intro r s hr hs hrs u hu v hv
        have b1 := hbr r hr
        have b2 := hbr s hs
        simp only [List.mem_cons, List.not_mem_nil, or_false] at hu hv
        rcases hu with rfl | rfl <;> rcases hv with rfl | rfl <;> simp only <;> omega
    have := sorted_perm_eq (key := fun e : EmphEvent × Nat => e.1.1) hperm hsorted hstrict
    rw [List.filter_map]
    have hcomp : ((fun q : Nat × Resolved => q.2 == b || q.2 == e) ∘ fun ev : EmphEvent × Nat => (ev.1.1, ev.1.2.1)) = Q := rfl
    rw [hcomp, this, hemit]
    simp only [List.map_map, List.map_flatMap, List.flatMap_map]
    rfl
  · intro r hr
    obtain ⟨r', hr', rfl⟩ := List.mem_map.1 hr
    have := hbr r' hr'
    have := (r1 r' hr').2.2.1
    omega
  · rw [List.pairwise_map]
    refine List.Pairwise.imp_of_mem ?_ r3
    intro r s hr hs hrs
    have b1 := hbr r hr
    have b2 := hbr s hs
    omega
  · intro p c hpc hsep
    have hsepAt : x.sepAt input p = false := by simp [EmphClass.sepAt, hpc, hsep]
    have hemph : flagAt active p = true ↔ Emphasised x input spans p := a3 p
    rw [← hemph]
    constructor
    · rintro ⟨r, hr, h1, h2⟩
      obtain ⟨r', hr', rfl⟩ := List.mem_map.1 hr
      have hb := hbr r' hr'
      obtain ⟨d, hd1, hd2⟩ := (r1 r' hr').2.2.2 p (by omega) (by omega)
      simp only [Nat.sub_zero, id] at hd1 hd2
      simp [flagAt, hd1, hd2]
    · intro hf
      unfold flagAt at hf
      cases hd : active[p]? with
      | none => rw [hd] at hf; cases hf
      | some d =>
        rw [hd] at hf
        simp only [Option.getD_some] at hf
        obtain ⟨r, hr, h1, h2⟩ := r4 p d hd hf
        refine ⟨bracket x input r, List.mem_map_of_mem hr, ?_⟩
        exact (hbr r hr).2.2.2 p (by omega) (by omega) hsepAt

/-! ## Terminators -/

theorem singleWord_only {x : EmphClass} {w : Nat × Nat} : ∀ ev ∈ x.singleWord w,
    x.emphletter = some ev.2.1 ∨ x.begemphword = some ev.2.1 := by
  intro ev hev
  unfold EmphClass.singleWord at hev
  split at hev
  · next t ht =>
    simp at hev; subst hev
    split at ht
    · exact .inl ht
    · cases ht
  · obtain ⟨t, ht, rfl⟩ := toList_map_mem hev
    exact .inr ht

/-- A terminator in a run comes with its opener. -/
theorem emitRun_terminators {x : EmphClass} {chars : Text} {start stop : Nat} (h1 : start < stop) (h2 : stop ≤ chars.length) :
    ∀ ev ∈ x.emitRun chars start stop,  (x.endemphword = some ev.2.1 ∨ x.endemphphrase = some ev.2.1) → x.emphletter ≠ some ev.2.1 → x.begemphword ≠ some ev.2.1 →
      x.begemphphrase ≠ some ev.2.1 → x.begemph ≠ some ev.2.1 → x.endemph ≠ some ev.2.1 →
      ∃ o ∈ x.emitRun chars start stop, o.1 < ev.1 ∧
        ((x.endemphword = some ev.2.1 ∧ x.begemphword = some o.2.1) ∨
          (x.endemphphrase = some ev.2.1 ∧ x.begemphphrase = some o.2.1)) := by
  intro ev hev hor n1 n2 n3 n4 n5
  unfold EmphClass.emitRun at hev ⊢
  split at hev
  · next b hb =>
    simp only [List.mem_cons] at hev
    rcases hev with rfl | hev
    · exact absurd hb n4
    · obtain ⟨e, he, rfl⟩ := toList_map_mem hev
      exact absurd he n5
  · have hseg := segments_bounds (x := x) (start := start) h2
    split at hev
    · cases hev
    · next first others hs =>
      rw [hs] at hseg
      have hf := hseg first (by simp)
      have hl := hseg _ (getLast_mem first others)
      simp only [hs] at hev ⊢
      split at hev
      · next hc =>
        rw [if_pos hc]
        unfold EmphClass.cleanWords at hev ⊢
        simp only at hev ⊢
        split at hev
        · next t ht =>
          rw [List.mem_cons] at hev
          have ht' : x.begemphphrase = some t := by
            split at ht
            · exact ht
            · cases ht
          rcases hev with rfl | hev
          · exact absurd ht' n3
          · split at hev
            · rcases singleWord_only ev hev with h | h
              · exact absurd h n1
              · exact absurd h n2
            · obtain ⟨e, he, rfl⟩ := toList_map_mem hev
              refine ⟨(first.1, t, .unordered), by simp [ht], ?_, .inr ⟨he, ht'⟩⟩
              have hord : first.1 < (others.getLast?.getD first).2 := by
                have hp : (x.segments chars start stop).Pairwise (fun r s => r.2 < s.1) :=
                  (C26_maximal_runs (fun c => !x.isSep c) chars start stop).2.2.1
                rw [hs, List.pairwise_cons] at hp
                cases hg : others.getLast? with
                | none => simp; omega
                | some y =>
                  have := hp.1 y (List.mem_of_getLast? hg)
                  rw [hg] at hl
                  simp only [Option.getD_some] at hl ⊢
                  omega
              exact hord
        · rw [List.mem_flatMap] at hev
          obtain ⟨w, hwm, hev⟩ := hev
          rcases singleWord_only ev hev with h | h
          · exact absurd h n1
          · exact absurd h n2
      · next hc =>
        rw [if_neg hc]
        unfold EmphClass.partialRun at hev ⊢
        simp only at hev ⊢
        split at hev
        · next t ht =>
          have ht' : x.emphletter = some t := by
            split at ht
            · exact ht
            · cases ht
          simp only [List.mem_singleton] at hev; subst hev
          exact absurd ht' n1
        · next ht =>
          split at hev
          · next t ht2 =>
            rw [List.mem_cons] at hev
            rcases hev with rfl | hev
            · exact absurd ht2 n2
            · split at hev
              · obtain ⟨e, he, rfl⟩ := toList_map_mem hev
                exact ⟨(start, t, .unordered), by simp [ht, ht2], h1, .inl ⟨he, ht2⟩⟩
              · cases hev
          · next ht2 =>
            split at hev
            · next t ht3 =>
              rw [List.mem_cons] at hev
              rcases hev with rfl | hev
              · exact absurd ht3 n3
              · split at hev
                · obtain ⟨e, he, rfl⟩ := toList_map_mem hev
                  exact ⟨(start, t, .unordered), by simp [ht, ht2, ht3], h1, .inr ⟨he, ht3⟩⟩
                · cases hev
            · cases hev

/-- **C29**, words and phrases: for a class whose word or phrase terminator `t` is used for nothing else, every terminator in
the output is preceded, inside one run of emphasised characters, by the opener it belongs to. -/
theorem C29_terminators_follow_openers (pre post : List EmphClass) (x : EmphClass) (t : Resolved)
    (ht : x.endemphword = some t ∨ x.endemphphrase = some t) (n1 : x.emphletter ≠ some t) (n2 : x.begemphword ≠ some t)
    (n3 : x.begemphphrase ≠ some t) (n4 : x.begemph ≠ some t) (n5 : x.endemph ≠ some t)
    (hother : ∀ y ∈ pre ++ post, t ∉ y.indicators) (input : Text)
    (spans : List Span) (out : List (Nat × Resolved)) (hout : emphPrecompute (pre ++ x :: post) input spans = .ok out)
    (q : Nat) (hq : (q, t) ∈ out) :
    ∃ p o, (p, o) ∈ out ∧ p < q ∧
      ((x.endemphword = some t ∧ x.begemphword = some o) ∨ (x.endemphphrase = some t ∧ x.begemphphrase = some o)) ∧
      ∀ i, p ≤ i → i < q → Emphasised x input spans i := by
  unfold emphPrecompute at hout
  split at hout
  · cases hout
  next es hes =>
  cases hout
  obtain ⟨es₁, es₂, active, k, rfl, hact, h1, h2⟩ := emphEvents_split input spans x post pre 0 es hes
  obtain ⟨active', a1, a2, a3⟩ := C22_emphasis_spans x input spans
  rw [hact] at a1
  cases a1
  have r1 := (active_runs (active := active)).1
  obtain ⟨ev, hev, heq⟩ := List.mem_map.1 hq
  rw [mem_stableSort] at hev
  simp only [Prod.mk.injEq] at heq
  obtain ⟨rfl, rfl⟩ := heq
  rcases List.mem_append.1 hev with hev | hev
  · rcases List.mem_append.1 hev with hev | hev
    · obtain ⟨y, hy, hi⟩ := h1 ev hev
      exact absurd hi (hother y (by simp [hy]))
    · obtain ⟨a, ha, rfl⟩ := List.mem_map.1 hev
      unfold EmphClass.emit at ha
      rw [List.mem_flatMap] at ha
      obtain ⟨r, hr, ha⟩ := ha
      obtain ⟨-, b1, b2, b3⟩ := r1 r hr
      have hlen : r.2 ≤ input.length := by omega
      obtain ⟨o, ho, ho1, ho2⟩ := emitRun_terminators b1 hlen a ha ht n1 n2 n3 n4 n5
      have hp1 := emitRun_pos b1 hlen o ho
      have hp2 := emitRun_pos b1 hlen a ha
      refine ⟨o.1, o.2.1, ?_, ho1, ho2, ?_⟩
      · refine List.mem_map.2 ⟨(o, k), ?_, rfl⟩
        rw [mem_stableSort]
        refine List.mem_append_left _ (List.mem_append_right _ (List.mem_map_of_mem ?_))
        unfold EmphClass.emit
        exact List.mem_flatMap.2 ⟨r, hr, ho⟩
      · intro i hi1 hi2
        obtain ⟨d, hd1, hd2⟩ := b3 i (by omega) (by simp only at hi2; omega)
        simp only [Nat.sub_zero, id] at hd1 hd2
        exact (a3 i).1 (by simp [flagAt, hd1, hd2])
  · obtain ⟨y, hy, hi⟩ := h2 ev hev
    exact absurd hi (hother y (by simp [hy]))

/-! ## Concrete cases -/

/-- A class with opening and closing indicators. -/
def modeClass (name : String) (o c : String) : EmphClass :=
  { EmphClass.new name.toList with begemph := some (indication o.toList ⟨.other, 0⟩), endemph := some (indication c.toList ⟨.other, 0⟩) }

/-- A class with word and phrase indicators. -/
def wordClass (name : String) : EmphClass :=
  { EmphClass.new name.toList with
    begemphword := some (indication ['w'] ⟨.other, 0⟩), endemphword := some (indication ['x'] ⟨.other, 0⟩)
    begemphphrase := some (indication ['p'] ⟨.other, 0⟩), endemphphrase := some (indication ['q'] ⟨.other, 0⟩)
    lenPhrase := 2, endemphphraseBefore := false, spaces := [' '] }

/-- Non-vacuity of `C29_openers_and_closers_alternate`: two classes that overlap, several runs. -/
example : (emphPrecompute [modeClass "italic" "i" "I", modeClass "bold" "b" "B"] "one two three".toList
      [⟨"italic".toList, 0, 7⟩, ⟨"bold".toList, 4, 7⟩, ⟨"italic".toList, 8, 99⟩]).toOption.map (·.map fun q => (q.1, q.2.output)) =
    some [(0, ['i']), (4, ['b']), (7, ['B']), (7, ['I']), (8, ['i']), (13, ['I'])] := by
  decide +kernel

/-- Non-vacuity of `C29_terminators_follow_openers`. -/
example : (emphPrecompute [wordClass "italic"] "one twothree four".toList
      [⟨"italic".toList, 4, 7⟩]).toOption.map (·.map fun q => (q.1, q.2.output)) = some [(4, ['w']), (7, ['x'])] ∧
    (emphPrecompute [wordClass "italic"] "one two three".toList
      [⟨"italic".toList, 0, 7⟩]).toOption.map (·.map fun q => (q.1, q.2.output)) = some [(0, ['p']), (7, ['q'])] := by
  decide +kernel

/-- **C29**, nesting across classes is wrong: where one class begins at the position at which another one ends, the opener can
come before the closer, so that the brackets of the two classes cross. -/
theorem C29_crossing_wrong :
    (emphPrecompute [modeClass "italic" "i" "I", modeClass "bold" "b" "B"] "abcdef".toList
      [⟨"bold".toList, 0, 3⟩, ⟨"italic".toList, 3, 6⟩]).toOption.map (·.map fun q => (q.1, q.2.output)) =
    some [(0, ['b']), (3, ['i']), (3, ['B']), (6, ['I'])] := by
  decide +kernel

end Louis
