import Verif.Props.MainFacts

/-!
# C75: a text that falls into parts

When nothing that the stage looks at in one part of a text depends on the other part, what it makes of the whole is what it
makes of the one followed by what it makes of the other.
-/

namespace Louis

/-- The same is said about two places, as far as it matters in the direction (punctuation apart). -/
structure Constraints.SameAt (d : Direction) (f g : Constraints) (i j : Nat) : Prop where
  number : f.dontContract i = g.dontContract j
  computer : f.useComp6 i = g.useComp6 j
  hyphen : f.hyphenationBreak i = g.hyphenationBreak j
  upper : d = .backward → f.uppercase i = g.uppercase j
  title : d = .backward → f.titlecase i = g.titlecase j
  digit : d = .backward → f.preferDigit i = g.preferDigit j

/-- What is listed is for some text, and that text is there. -/
def Sizes (l : Text → Option Char → List Resolved) : Prop :=
  ∀ rest prev, ∀ o ∈ l rest prev, 0 < o.length ∧ o.length = o.input.length ∧ o.length ≤ rest.length

/-- What is listed for the text before the seam does not depend on the text after it, and the other way round. -/
structure SeamIn (l : Text → Option Char → List Resolved) (x y : Text) (last : Option Char) : Prop where
  before : ∀ a u prev, x = a ++ u → u ≠ [] → l (u ++ y) prev = l u prev
  after : l y last = l y none

structure Listing.Seam (L : Listing) (x y : Text) (last : Option Char) : Prop where
  entries : SeamIn L.entries x y last
  unbroken : SeamIn L.unbroken x y last
  computer : SeamIn L.computer x y last

structure Listing.Sized (L : Listing) : Prop where
  entries : Sizes L.entries
  unbroken : Sizes L.unbroken
  computer : Sizes L.computer

/-- The table has neither `match` nor `context` lines. -/
def MainTable.NoPatterns (T : MainTable) : Prop := T.matchLines = [] ∧ T.contextLines = []

/-- The next item, as a function of the place, the rest of the text and the character before it. -/
def MainTable.step (T : MainTable) (L : Listing) (flags : Constraints) (place : Nat) (rest : Text) (prev : Option Char) :
    Option Made :=
  match lastHeaviest ((L.unbroken rest prev).filter fun o =>
      !(List.range (o.length - 1)).any fun i => flags.hyphenationBreak (place + i)),
    lastHeaviest (if flags.useComp6 place then L.computer rest prev
      else ((T.digitsFirst flags place rest ((L.entries rest prev).filter (allowedHere flags place))).filter
        fun o => !flags.dontContract place || decide (o.length ≤ 1))) with
  | some u, some o => some (if o.weight ≤ u.weight then ⟨.unbroken, u⟩ else ⟨.line, o⟩)
  | some u, none => some ⟨.unbroken, u⟩
  | none, some o => some ⟨.line, o⟩
  | none, none => rest.head?.map fun c => ⟨.spelled, T.spelled c⟩

theorem noPatterns_offers {T : MainTable} (h : T.NoPatterns) (lower : Char → List Char) (input : Text) (items : List Resolved) :
    T.offers lower input items = [] := by
  unfold MainTable.offers PassTable.offers
  rw [h.1, h.2]
  rfl

theorem fromEarlier_nil {offers : List Resolved → List Resolved} (h : ∀ i, offers i = []) (items : List Resolved) :
    fromEarlier offers items = [] := by
  unfold fromEarlier
  simp [h]

theorem next_step {T : MainTable} (h : T.NoPatterns) {L : Listing} {lower : Char → List Char} {flags : Constraints} {input : Text}
    {made : List Made} (hs : spentOn made = []) :
    T.next L lower flags input made =
      T.step L flags (placeOf made) (input.drop (placeOf made)) (dealtWith (itemsOf made)).getLast? := by
  have hc : T.best L lower flags input made = lastHeaviest (if flags.useComp6 (placeOf made) then
      L.computer (input.drop (placeOf made)) (dealtWith (itemsOf made)).getLast?
      else ((T.digitsFirst flags (placeOf made) (input.drop (placeOf made)) ((L.entries (input.drop (placeOf made))
        (dealtWith (itemsOf made)).getLast?).filter (allowedHere flags (placeOf made)))).filter
        fun o => !flags.dontContract (placeOf made) || decide (o.length ≤ 1))) := by
    unfold MainTable.best MainTable.choices
    rw [hs]
    simp only [noPatterns_offers h, fromEarlier_nil (offers := T.offers lower input) (noPatterns_offers h lower input),
      List.filter_nil, List.append_nil]
    congr 1
    rw [List.filter_eq_self]
    intro o _
    rfl
  unfold MainTable.next MainTable.step
  rw [hc]
  rfl

theorem digitsFirst_same {T : MainTable} {f g : Constraints} {i j : Nat} (h : f.SameAt T.dir g i j) {r r' : Text}
    (hr : r.head? = r'.head?) (l : List Resolved) : T.digitsFirst f i r l = T.digitsFirst g j r' l := by
  unfold MainTable.digitsFirst
  by_cases hd : T.dir = .backward
  · rw [h.digit hd, hr]
  · rw [if_neg fun h => hd h.1, if_neg fun h => hd h.1]

/-- The next item is the same where all that the stage looks at is the same. -/
theorem step_same {T : MainTable} {L : Listing} {f g : Constraints} {i j : Nat} {r r' : Text} {p p' : Option Char}
    (hh : r.head? = r'.head?) (hf : f.SameAt T.dir g i j) (he : L.entries r p = L.entries r' p')
    (hu : L.unbroken r p = L.unbroken r' p') (hc : L.computer r p = L.computer r' p')
    (ha : ∀ o ∈ L.entries r' p', allowedHere f i o = allowedHere g j o)
    (hy : ∀ o ∈ L.unbroken r' p', ∀ k, k + 1 < o.length → f.hyphenationBreak (i + k) = g.hyphenationBreak (j + k)) :
    T.step L f i r p = T.step L g j r' p' := by
  unfold MainTable.step
  have hfil : ((L.unbroken r' p').filter fun o => !(List.range (o.length - 1)).any fun k => f.hyphenationBreak (i + k)) =
      ((L.unbroken r' p').filter fun o => !(List.range (o.length - 1)).any fun k => g.hyphenationBreak (j + k)) := by
    apply List.filter_congr
    intro o ho
    congr 1
    rw [Bool.eq_iff_iff, List.any_eq_true, List.any_eq_true]
    constructor
    · rintro ⟨k, hk, hb⟩
      exact ⟨k, hk, by rw [← hy o ho k (by have := List.mem_range.1 hk; omega)]; exact hb⟩
    · rintro ⟨k, hk, hb⟩
      exact ⟨k, hk, by rw [hy o ho k (by have := List.mem_range.1 hk; omega)]; exact hb⟩
  rw [he, hu, hc, hfil, List.filter_congr ha, hf.computer, hf.number, hh, digitsFirst_same (T := T) hf hh]

/-- What can be the next item: something listed, or a character. -/
theorem step_from {T : MainTable} {L : Listing} {f : Constraints} {i : Nat} {r : Text} {p : Option Char} {m : Made}
    (h : T.step L f i r p = some m) : m.item ∈ L.entries r p ∨ m.item ∈ L.unbroken r p ∨ m.item ∈ L.computer r p ∨
      (∃ q ∈ T.digits, m.item = q.2 ∧ r.head? = some q.1) ∨ (m.way = .spelled ∧ ∃ c, r.head? = some c ∧ m.item = T.spelled c) := by
  unfold MainTable.step at h
  have hb : ∀ {o : Resolved}, lastHeaviest (if f.useComp6 i then L.computer r p
      else ((T.digitsFirst f i r ((L.entries r p).filter (allowedHere f i))).filter
        fun o => !f.dontContract i || decide (o.length ≤ 1))) = some o →
      o ∈ L.entries r p ∨ o ∈ L.computer r p ∨ ∃ q ∈ T.digits, o = q.2 ∧ r.head? = some q.1 := by
    intro o ho
    have := lastHeaviest_mem ho
    split at this
    · exact .inr (.inl this)
    · have := (List.mem_filter.1 this).1
      unfold MainTable.digitsFirst at this
      split at this
      · split at this
        · next digit hd =>
          rcases List.mem_append.1 this with this | this
          · exact .inl (List.mem_filter.1 (List.mem_filter.1 this).1).1
          · rw [List.mem_singleton.1 this]
            cases hr : r.head? with
            | none => rw [hr] at hd; cases hd
            | some c =>
              rw [hr] at hd
              obtain ⟨q, hq, rfl⟩ := Option.map_eq_some_iff.1 hd
              exact .inr (.inr ⟨q, List.mem_of_find?_eq_some hq, rfl, by
                have := List.find?_some hq; simp only [beq_iff_eq] at this; rw [this]⟩)
        · exact .inl (List.mem_filter.1 this).1
      · exact .inl (List.mem_filter.1 this).1
  split at h
  · next u o hu ho =>
    cases h
    split
    · exact .inr (.inl (List.mem_filter.1 (lastHeaviest_mem hu)).1)
    · rcases hb ho with h | h | h
      · exact .inl h
      · exact .inr (.inr (.inl h))
      · exact .inr (.inr (.inr (.inl h)))
  · next u hu ho => cases h; exact .inr (.inl (List.mem_filter.1 (lastHeaviest_mem hu)).1)
  · next o hu ho =>
    cases h
    rcases hb ho with h | h | h
    · exact .inl h
    · exact .inr (.inr (.inl h))
    · exact .inr (.inr (.inr (.inl h)))
  · obtain ⟨c, hc, rfl⟩ := Option.map_eq_some_iff.1 h
    exact .inr (.inr (.inr (.inr ⟨rfl, c, hc, rfl⟩)))

/-- Single characters are single characters. -/
structure MainTable.Single (T : MainTable) : Prop where
  spelled : ∀ c, (T.spelled c).input = [c] ∧ (T.spelled c).length = 1
  digits : ∀ q ∈ T.digits, q.2.input = [q.1] ∧ q.2.length = 1

theorem mainTable_single (ctx : PrimCtx) (d : Direction) (ops : List PrimOp) : (mainTable ctx d ops).Single := by
  refine ⟨fun c => ⟨(spelled_shape ctx d ops c).1, (spelled_shape ctx d ops c).2.1⟩, fun q hq => ?_⟩
  have hq : q ∈ (digitsOf ops).reverse := hq
  rw [List.mem_reverse] at hq
  obtain ⟨op, -, hop⟩ := List.mem_filterMap.1 hq
  cases op <;> simp at hop
  obtain rfl := hop
  exact ⟨rfl, rfl⟩

/-- The items are for some text, and that text is there. -/
def ItemFits (rest : Text) (o : Resolved) : Prop := 0 < o.length ∧ o.length = o.input.length ∧ o.length ≤ rest.length

section

variable {T : MainTable} {L : Listing} {lower : Char → List Char}

theorem step_fits (hz : L.Sized) (hs : T.Single) {f : Constraints} {i : Nat} {r : Text} {p : Option Char} {m : Made}
    (h : T.step L f i r p = some m) : ItemFits r m.item := by
  have one : ∀ {o : Resolved} {c : Char}, o.input = [c] ∧ o.length = 1 → r.head? = some c → ItemFits r o := by
    intro o c ho hr
    cases r with
    | nil => cases hr
    | cons => exact ⟨by omega, by rw [ho.1, ho.2]; rfl, by rw [ho.2]; simp⟩
  rcases step_from h with h | h | h | ⟨q, hq, h, hr⟩ | ⟨-, c, hc, h⟩
  · exact hz.entries _ _ _ h
  · exact hz.unbroken _ _ _ h
  · exact hz.computer _ _ _ h
  · rw [h]; exact one (hs.digits q hq) hr
  · rw [h]; exact one (hs.spelled c) hc

theorem step_end (hz : L.Sized) (hs : T.Single) (f : Constraints) (i : Nat) (p : Option Char) : T.step L f i [] p = none := by
  cases h : T.step L f i [] p with
  | none => rfl
  | some m =>
    obtain ⟨h1, -, h2⟩ := step_fits hz hs h
    simp only [List.length_nil] at h2
    omega

/-- If no item replaces nothing, nothing is ever spent. -/
theorem spentOn_nil : ∀ {made : List Made}, (∀ m ∈ made, 0 < m.item.length) → spentOn made = [] := by
  intro made
  suffices ∀ n (made : List Made), made.length = n → (∀ m ∈ made, 0 < m.item.length) → spentOn made = [] from this _ made rfl
  intro n
  induction n with
  | zero => intro made h _; rw [List.length_eq_zero_iff.1 h]; rfl
  | succ n ih =>
    intro made h hp
    rcases List.eq_nil_or_concat made with rfl | ⟨u, y, rfl⟩
    · rfl
    · rw [List.concat_eq_append] at h hp ⊢
      simp only [List.length_append, List.length_singleton] at h
      rw [spentOn_append, ih u (by omega) fun m hm => hp m (by simp [hm])]
      have := hp y (by simp)
      have hne : y.item.length ≠ 0 := by omega
      simp [hne]

theorem arrived_pos {made : List Made} (h : ∀ m ∈ made, 0 < m.item.length) : arrived (itemsOf made) = true := by
  unfold arrived itemsOf
  rcases List.eq_nil_or_concat made with rfl | ⟨u, y, rfl⟩
  · rfl
  · rw [List.concat_eq_append] at h ⊢
    have := h y (by simp)
    simp only [List.map_append, List.map_cons, List.map_nil, List.getLast?_concat, Option.all_some, bne_iff_ne]
    omega

/-- Every item of a run is for the text that follows the items before it. -/
theorem run_fits (hn : T.NoPatterns) (hz : L.Sized) (hs : T.Single) {f : Constraints} {x : Text} {made : List Made}
    (h : ∀ i (h : i < made.length), T.next L lower f x (made.take i) = some made[i]) :
    ∀ i (h : i < made.length), ItemFits (x.drop (placeOf (made.take i))) made[i].item := by
  intro i
  induction i using Nat.strongRecOn with
  | ind i ih =>
    intro hi
    have hpos : ∀ m ∈ made.take i, 0 < m.item.length := by
      intro m hm
      obtain ⟨j, hj, rfl⟩ := List.getElem_of_mem hm
      rw [List.length_take] at hj
      rw [List.getElem_take]
      exact (ih j (by omega) (by omega)).1
    have := h i hi
    rw [next_step hn (spentOn_nil hpos)] at this
    exact step_fits hz hs this

theorem run_pos (hn : T.NoPatterns) (hz : L.Sized) (hs : T.Single) {f : Constraints} {x : Text} {made : List Made}
    (h : T.Run L lower f x made) : ∀ m ∈ made, 0 < m.item.length := by
  intro m hm
  obtain ⟨j, hj, rfl⟩ := List.getElem_of_mem hm
  exact (run_fits hn hz hs h.each j hj).1

/-- A run ends at the end of the text. -/
theorem run_place (hn : T.NoPatterns) (hz : L.Sized) (hs : T.Single) {f : Constraints} {x : Text} {made : List Made}
    (h : T.Run L lower f x made) : placeOf made = x.length := by
  have h1 : ∀ i ≤ made.length, placeOf (made.take i) ≤ x.length := by
    intro i
    induction i with
    | zero => intro _; simp [placeOf, itemsOf, dealtWith]
    | succ i ih =>
      intro hi
      have := run_fits hn hz hs h.each i (by omega)
      obtain ⟨a, b, c⟩ := this
      rw [List.length_drop] at c
      rw [List.take_succ_eq_append_getElem (by omega), placeOf_append, ← b]
      have := ih (by omega)
      omega
  have h2 := h1 made.length (Nat.le_refl _)
  rw [List.take_length] at h2
  have h3 := h.last
  unfold MainTable.next at h3
  split at h3 <;> try cases h3
  rw [Option.map_eq_none_iff, List.head?_eq_none_iff, List.drop_eq_nil_iff] at h3
  omega

theorem itemsOf_join (a b : List Made) : itemsOf (a ++ b) = itemsOf a ++ itemsOf b := by simp [itemsOf]

theorem dealtWith_join (a b : List Resolved) : dealtWith (a ++ b) = dealtWith a ++ dealtWith b := by simp [dealtWith]

theorem placeOf_join (a b : List Made) : placeOf (a ++ b) = placeOf a + placeOf b := by
  simp [placeOf, itemsOf_join, dealtWith_join]

/-- The places of the items of a run. -/
theorem run_inside (hn : T.NoPatterns) (hz : L.Sized) (hs : T.Single) {f : Constraints} {x : Text} {made : List Made}
    (h : T.Run L lower f x made) (i : Nat) (hi : i < made.length) : placeOf (made.take i) < x.length := by
  have := run_place hn hz hs h
  rw [← List.take_append_drop i made, placeOf_join] at this
  obtain ⟨a, b, c⟩ := run_fits hn hz hs h.each i hi
  rw [List.length_drop] at c
  omega

/-- **C75**, one seam: the run of the whole is the run of the one part followed by the run of the other. -/
theorem run_join (hn : T.NoPatterns) (hz : L.Sized) (hs : T.Single) {f fx fy : Constraints} {x y : Text} {m₁ m₂ : List Made}
    (hx : T.Run L lower fx x m₁) (hy : T.Run L lower fy y m₂)
    (hseam : L.Seam x y (dealtWith (itemsOf m₁)).getLast?)
    (hfx : ∀ i < x.length, f.SameAt T.dir fx i i) (hfy : ∀ i < y.length, f.SameAt T.dir fy (x.length + i) i)
    (hax : ∀ i < x.length, ∀ p, ∀ o ∈ L.entries (x.drop i) p, allowedHere f i o = allowedHere fx i o)
    (hay : ∀ i < y.length, ∀ p, ∀ o ∈ L.entries (y.drop i) p, allowedHere f (x.length + i) o = allowedHere fy i o) :
    T.Run L lower f (x ++ y) (m₁ ++ m₂) := by
  have p1 := run_pos hn hz hs hx
  have p2 := run_pos hn hz hs hy
  have e1 := run_place hn hz hs hx
  have e2 := run_place hn hz hs hy
  have pos_take : ∀ {l : List Made} (k : Nat), (∀ m ∈ l, 0 < m.item.length) → ∀ m ∈ l.take k, 0 < m.item.length :=
    fun k h m hm => h m (List.mem_of_mem_take hm)
  constructor
  · intro i hi
    rw [List.length_append] at hi
    by_cases h : i < m₁.length
    · rw [List.take_append_of_le_length (by omega), List.getElem_append_left h]
      have hin := run_inside hn hz hs hx i h
      have := hx.each i h
      rw [next_step hn (spentOn_nil (pos_take i p1))] at this ⊢
      rw [← this]
      have hd : (x ++ y).drop (placeOf (m₁.take i)) = x.drop (placeOf (m₁.take i)) ++ y := by
        rw [List.drop_append_of_le_length (by omega)]
      have hne : x.drop (placeOf (m₁.take i)) ≠ [] := by
        intro e
        rw [List.drop_eq_nil_iff] at e
        omega
      have hx' := (List.take_append_drop (placeOf (m₁.take i)) x).symm
      rw [hd]
      refine step_same ?_ (hfx _ hin) (hseam.entries.before _ _ _ hx' hne) (hseam.unbroken.before _ _ _ hx' hne)
        (hseam.computer.before _ _ _ hx' hne) (hax _ hin _) ?_
      · cases hc : x.drop (placeOf (m₁.take i)) with
        | nil => exact absurd hc hne
        | cons => rfl
      · intro o ho k hk
        have := (hz.unbroken _ _ o ho).2.2
        rw [List.length_drop] at this
        exact (hfx _ (by omega)).hyphen
    · obtain ⟨k, rfl⟩ : ∃ k, i = m₁.length + k := ⟨i - m₁.length, by omega⟩
      have hk : k < m₂.length := by omega
      rw [List.take_length_add_append, List.getElem_append_right (by omega)]
      have hin := run_inside hn hz hs hy k hk
      have := hy.each k hk
      have hpos : ∀ m ∈ m₁ ++ m₂.take k, 0 < m.item.length := by
        intro m hm
        rcases List.mem_append.1 hm with hm | hm
        · exact p1 m hm
        · exact pos_take k p2 m hm
      rw [next_step hn (spentOn_nil (pos_take k p2))] at this
      rw [next_step hn (spentOn_nil hpos)]
      simp only [Nat.add_sub_cancel_left]
      rw [← this, placeOf_join, e1, List.drop_length_add_append]
      have key : ∀ {l : Text → Option Char → List Resolved}, SeamIn l x y (dealtWith (itemsOf m₁)).getLast? →
          l (y.drop (placeOf (m₂.take k))) (dealtWith (itemsOf (m₁ ++ m₂.take k))).getLast? =
            l (y.drop (placeOf (m₂.take k))) (dealtWith (itemsOf (m₂.take k))).getLast? := by
        intro l hl
        rw [itemsOf_join, dealtWith_join, List.getLast?_append]
        cases hd : dealtWith (itemsOf (m₂.take k)) with
        | nil =>
          have : placeOf (m₂.take k) = 0 := by unfold placeOf; rw [hd]; rfl
          rw [this, List.drop_zero]
          exact hl.after
        | cons c cs => rw [List.getLast?_cons]; rfl
      refine step_same rfl (hfy _ hin) (key hseam.entries) (key hseam.unbroken) (key hseam.computer)
        (hay _ hin _) ?_
      intro o ho j hj
      have := (hz.unbroken _ _ o ho).2.2
      rw [List.length_drop] at this
      have := (hfy (placeOf (m₂.take k) + j) (by omega)).hyphen
      rwa [← Nat.add_assoc] at this
  · have hpos : ∀ m ∈ m₁ ++ m₂, 0 < m.item.length := by
      intro m hm
      rcases List.mem_append.1 hm with hm | hm
      · exact p1 m hm
      · exact p2 m hm
    rw [next_step hn (spentOn_nil hpos), placeOf_join, e1, e2, List.drop_of_length_le (by simp)]
    exact step_end hz hs _ _ _

theorem shown_same {T : MainTable} {cs : Case} {f g : Constraints} {i j : Nat} (h : f.SameAt T.dir g i j) (m : Made) :
    T.shown cs f i m = T.shown cs g j m := by
  unfold MainTable.shown
  cases hd : T.dir with
  | forward => simp
  | backward => rw [h.upper hd, h.title hd]

theorem trace_written (T : MainTable) (cs : Case) (f : Constraints) (signs : Nat → List Resolved) {made : List Made}
    (h : ∀ m ∈ made, 0 < m.item.length) : T.trace cs f signs made = T.written cs f signs made ++ signs (placeOf made) := by
  unfold MainTable.trace MainTable.written
  rw [arrived_pos h, if_pos rfl]

theorem written_same {cs : Case} {f g : Constraints} {s s' : Nat → List Resolved} : ∀ (n : Nat) (made : List Made), made.length = n →
    (∀ m ∈ made, 0 < m.item.length ∧ m.item.length = m.item.input.length) → (∀ i < placeOf made, f.SameAt T.dir g i i ∧ s i = s' i) →
    T.written cs f s made = T.written cs g s' made := by
  intro n
  induction n with
  | zero => intro made h _ _; rw [List.length_eq_zero_iff.1 h]; rfl
  | succ n ih =>
    intro made h hp hf
    rcases List.eq_nil_or_concat made with rfl | ⟨u, m, rfl⟩
    · rfl
    · rw [List.concat_eq_append] at h hp hf ⊢
      simp only [List.length_append, List.length_singleton] at h
      have hm := hp m (by simp)
      rw [placeOf_append, ← hm.2] at hf
      rw [written_append, written_append, ih u (by omega) (fun x hx => hp x (by simp [hx])) fun i hi => hf i (by omega),
        shown_same (hf (placeOf u) (by omega)).1, (hf (placeOf u) (by omega)).2]

theorem trace_join {cs : Case} {f fx fy : Constraints} {s sx sy : Nat → List Resolved} {m₁ : List Made}
    (p1 : ∀ m ∈ m₁, 0 < m.item.length ∧ m.item.length = m.item.input.length)
    (hfx : ∀ i < placeOf m₁, f.SameAt T.dir fx i i ∧ s i = sx i) (hs : s (placeOf m₁) = sx (placeOf m₁) ++ sy 0) :
    ∀ (n : Nat) (m₂ : List Made), m₂.length = n → (∀ m ∈ m₂, 0 < m.item.length ∧ m.item.length = m.item.input.length) →
      (∀ i < placeOf m₂, f.SameAt T.dir fy (placeOf m₁ + i) i) → (∀ i, 0 < i → i ≤ placeOf m₂ → s (placeOf m₁ + i) = sy i) →
      T.trace cs f s (m₁ ++ m₂) = T.trace cs fx sx m₁ ++ T.trace cs fy sy m₂ := by
  have tr : ∀ {f : Constraints} {s : Nat → List Resolved} {made : List Made}, (∀ m ∈ made, 0 < m.item.length ∧
      m.item.length = m.item.input.length) → T.trace cs f s made = T.written cs f s made ++ s (placeOf made) :=
    fun h => trace_written T cs _ _ fun m hm => (h m hm).1
  intro n
  induction n with
  | zero =>
    intro m₂ h _ _ _
    rw [List.length_eq_zero_iff.1 h, List.append_nil, tr p1, tr p1, tr (by simp), written_same _ m₁ rfl p1 hfx, hs]
    simp [MainTable.written, placeOf, itemsOf, dealtWith]
  | succ n ih =>
    intro m₂ h p2 hfy hsy
    rcases List.eq_nil_or_concat m₂ with rfl | ⟨u, m, rfl⟩
    · cases h
    · rw [List.concat_eq_append] at h p2 hfy hsy ⊢
      simp only [List.length_append, List.length_singleton] at h
      have hm := p2 m (by simp)
      have pu : ∀ x ∈ u, 0 < x.item.length ∧ x.item.length = x.item.input.length := fun x hx => p2 x (by simp [hx])
      have pall : ∀ x ∈ m₁ ++ u, 0 < x.item.length ∧ x.item.length = x.item.input.length := by
        intro x hx
        rcases List.mem_append.1 hx with hx | hx
        · exact p1 x hx
        · exact pu x hx
      rw [placeOf_append, ← hm.2] at hfy hsy
      have := ih u (by omega) pu (fun i hi => hfy i (by omega)) (fun i h1 h2 => hsy i h1 (by omega))
      rw [tr pall, tr pu] at this
      rw [← List.append_assoc, tr (by intro x hx; rcases List.mem_append.1 hx with hx | hx
                                      · exact pall x hx
                                      · rw [List.mem_singleton.1 hx]; exact hm),
        tr p2, written_append, written_append, arrived_pos fun x hx => (pall x hx).1, arrived_pos fun x hx => (pu x hx).1,
        if_pos rfl, if_pos rfl, this, placeOf_append, placeOf_append, placeOf_join, ← hm.2, Nat.add_assoc,
        hsy _ (by omega) (Nat.le_refl _), shown_same (hfy (placeOf u) (by omega))]
      simp only [List.append_assoc]

/-- Seen from a later place. -/
def Constraints.from (f : Constraints) (n : Nat) : Constraints where
  dontContract i := f.dontContract (n + i)
  useComp6 i := f.useComp6 (n + i)
  uppercase i := f.uppercase (n + i)
  titlecase i := f.titlecase (n + i)
  preferDigit i := f.preferDigit (n + i)
  hyphenationBreak i := f.hyphenationBreak (n + i)
  prepuncOk i := f.prepuncOk (n + i)
  postpuncOk i := f.postpuncOk (n + i)

theorem Constraints.same_from (d : Direction) (f : Constraints) (n i : Nat) : f.SameAt d (f.from n) (n + i) i :=
  ⟨rfl, rfl, rfl, fun _ => rfl, fun _ => rfl, fun _ => rfl⟩

theorem Constraints.SameAt.from {d : Direction} {f g : Constraints} {n i j : Nat} (h : f.SameAt d g (n + i) j) :
    (f.from n).SameAt d g i j := ⟨h.number, h.computer, h.hyphen, h.upper, h.title, h.digit⟩

/-- What is said about the places of a text and about those of its three parts. -/
structure Thirds (d : Direction) (f fx fy fz : Constraints) (s sx sy sz : Nat → List Resolved) (x y z : Text) : Prop where
  of_fx : ∀ i < x.length, f.SameAt d fx i i
  of_fy : ∀ i < y.length, f.SameAt d fy (x.length + i) i
  of_fz : ∀ i < z.length, f.SameAt d fz (x.length + (y.length + i)) i
  of_sx : ∀ i < x.length, s i = sx i
  of_sxy : s x.length = sx x.length ++ sy 0
  of_sy : ∀ i, 0 < i → i < y.length → s (x.length + i) = sy i
  of_syz : s (x.length + y.length) = sy y.length ++ sz 0
  of_sz : ∀ i, 0 < i → i ≤ z.length → s (x.length + (y.length + i)) = sz i

/-- **C75**, two seams. -/
theorem run_thirds (hn : T.NoPatterns) (hz : L.Sized) (hs : T.Single) {cs : Case} {f fx fy fz : Constraints}
    {s sx sy sz : Nat → List Resolved} {x y z : Text} (hy : y ≠ []) {m₁ m₂ m₃ : List Made} (h : Thirds T.dir f fx fy fz s sx sy sz x y z)
    (h1 : T.Run L lower fx x m₁) (h2 : T.Run L lower fy y m₂) (h3 : T.Run L lower fz z m₃)
    (seam : L.Seam x (y ++ z) (dealtWith (itemsOf m₁)).getLast?) (seam' : L.Seam y z (dealtWith (itemsOf m₂)).getLast?)
    (ax : ∀ i < x.length, ∀ p, ∀ o ∈ L.entries (x.drop i) p, allowedHere f i o = allowedHere fx i o)
    (ay : ∀ i < y.length, ∀ p, ∀ o ∈ L.entries (y.drop i) p, allowedHere f (x.length + i) o = allowedHere fy i o)
    (az : ∀ i < z.length, ∀ p, ∀ o ∈ L.entries (z.drop i) p, allowedHere f (x.length + (y.length + i)) o = allowedHere fz i o) :
    ∃ made, T.Run L lower f (x ++ (y ++ z)) made ∧
      T.trace cs f s made = T.trace cs fx sx m₁ ++ (T.trace cs fy sy m₂ ++ T.trace cs fz sz m₃) := by
  have hyz : T.Run L lower (f.from x.length) (y ++ z) (m₂ ++ m₃) :=
    run_join hn hz hs h2 h3 seam' (fun i hi => (h.of_fy i hi).from) (fun i hi => (h.of_fz i hi).from) ay az
  refine ⟨_, run_join hn hz hs h1 hyz seam h.of_fx (fun i _ => f.same_from _ _ _) ax (fun i _ p o _ => rfl), ?_⟩
  have fits : ∀ {f : Constraints} {x : Text} {m : List Made}, T.Run L lower f x m → ∀ a ∈ m, 0 < a.item.length ∧
      a.item.length = a.item.input.length := by
    intro f x m hm a ha
    obtain ⟨j, hj, rfl⟩ := List.getElem_of_mem ha
    have := run_fits hn hz hs hm.each j hj
    exact ⟨this.1, this.2.1⟩
  have e1 := run_place hn hz hs h1
  have e2 := run_place hn hz hs h2
  have e3 := run_place hn hz hs h3
  have e23 := run_place hn hz hs hyz
  have hyp : 0 < y.length := List.length_pos_iff.2 hy
  rw [trace_join (fy := f.from x.length) (sx := sx) (sy := fun i => if i = 0 then sy 0 else s (x.length + i)) (fx := fx) (fits h1) ?_ ?_ _ _ rfl (fits hyz) ?_ ?_,
    trace_join (fy := fz) (sx := sy) (sy := sz) (fx := fy) (fits h2) ?_ ?_ _ _ rfl (fits h3) ?_ ?_]
  · rw [e2]; intro i hi
    refine ⟨(h.of_fy i hi).from, ?_⟩
    by_cases h0 : i = 0
    · subst h0; simp
    · rw [if_neg h0]; exact h.of_sy i (by omega) hi
  · rw [e2, if_neg (by omega)]; exact h.of_syz
  · rw [e2, e3]; intro i hi; exact (h.of_fz i hi).from
  · rw [e2, e3]; intro i h0 hi; rw [if_neg (by omega)]; exact h.of_sz i h0 hi
  · rw [e1]; exact fun i hi => ⟨h.of_fx i hi, h.of_sx i hi⟩
  · rw [e1]; exact h.of_sxy
  · rw [e1]; intro i _; exact f.same_from _ _ _
  · rw [e1]; intro i h0 _; rw [if_neg (by omega)]

end

end Louis
